import Verif.Model.KernelParams
import Verif.Props.NotANumber
import Verif.Props.Median
import Verif.Props.Metrics
import Verif.Props.Kernel
import Verif.Props.KernelSums

/-!
# C103: what kernel parameters are accepted, and what comes of the ones that are not numbers
-/

namespace Coreax

open Ext

namespace Spec

/-- A float that passes for a positive one: a positive number, an infinity, or NaN. -/
def PassesPos (v : Ext ℝ) : Prop := v = nan ∨ v = pinf ∨ ∃ r : ℝ, 0 < r ∧ v = fin r

/-- A float that passes for a non-negative one. -/
def PassesNonneg (v : Ext ℝ) : Prop := v = nan ∨ v = pinf ∨ ∃ r : ℝ, 0 ≤ r ∧ v = fin r

/-- An `int` that is not too small. -/
def IntFrom (lo : ℤ) (n : PyNum) : Prop := ∃ z, lo ≤ z ∧ n = .int z

/-- The kernels that can be constructed. -/
def Constructible : PKernel → Prop
  | .const c => PassesNonneg c
  | .linear s c => PassesPos s ∧ PassesNonneg c
  | .polynomial s c n => PassesPos s ∧ PassesNonneg c ∧ IntFrom 2 n
  | .exponential l s => PassesPos l ∧ PassesPos s
  | .laplacian l s => PassesPos l ∧ PassesPos s
  | .squaredExponential l s => PassesPos l ∧ PassesPos s
  | .pcimq l s => PassesPos l ∧ PassesPos s
  | .rationalQuadratic l s a => PassesPos l ∧ PassesPos s ∧ PassesNonneg a
  | .matern l s n => PassesPos l ∧ PassesPos s ∧ IntFrom 0 n
  | .periodic l s _ => PassesPos l ∧ PassesPos s
  | .poisson r s => (r = nan ∨ ∃ v : ℝ, 0 < v ∧ v < 1 ∧ r = fin v) ∧ PassesPos s
  | .power k n => Constructible k ∧ IntFrom 1 n
  | .add a b => Constructible a ∧ Constructible b
  | .mul a b => Constructible a ∧ Constructible b

/-- A kernel with a parameter that is NaN, in some part of it.  (In a rational quadratic kernel with weighting zero the length scale does
not matter.) -/
def HasNan : PKernel → Prop
  | .const c => c = nan
  | .linear s c => s = nan ∨ c = nan
  | .polynomial s c _ => s = nan ∨ c = nan
  | .exponential l s => l = nan ∨ s = nan
  | .laplacian l s => l = nan ∨ s = nan
  | .squaredExponential l s => l = nan ∨ s = nan
  | .pcimq l s => l = nan ∨ s = nan
  | .rationalQuadratic l s a => (l = nan ∧ a ≠ fin 0) ∨ s = nan ∨ a = nan
  | .matern l s _ => l = nan ∨ s = nan
  | .periodic l s p => l = nan ∨ s = nan ∨ p = nan
  | .poisson r s => r = nan ∨ s = nan
  | .power k _ => HasNan k
  | .add a b => HasNan a ∨ HasNan b
  | .mul a b => HasNan a ∨ HasNan b

/-- The kernel with numbers for parameters (no weighting zero and no period zero). -/
inductive Numeric {d : ℕ} : PKernel → KExpr d → Prop
  | const (c) : Numeric (.const (fin c)) (.const c)
  | linear (s c) : Numeric (.linear (fin s) (fin c)) (.linear s c)
  | polynomial (s c n) : Numeric (.polynomial (fin s) (fin c) n) (.polynomial s c n)
  | exponential (l s) : Numeric (.exponential (fin l) (fin s)) (.exponential l s)
  | laplacian (l s) : Numeric (.laplacian (fin l) (fin s)) (.laplacian l s)
  | squaredExponential (l s) : Numeric (.squaredExponential (fin l) (fin s)) (.squaredExponential l s)
  | pcimq (l s) : Numeric (.pcimq (fin l) (fin s)) (.pcimq l s)
  | rationalQuadratic (l s a) : a ≠ 0 → Numeric (.rationalQuadratic (fin l) (fin s) (fin a)) (.rationalQuadratic l s a)
  | matern (l s n) : Numeric (.matern (fin l) (fin s) n) (.matern l s n)
  | periodic (l s p) : p ≠ 0 → Numeric (.periodic (fin l) (fin s) (fin p)) (.periodic l s p)
  | poisson (r s) : Numeric (.poisson (fin r) (fin s)) (.poisson r s)
  | power {k k'} (n) : Numeric k k' → Numeric (.power k n) (.power k' n)
  | add {a a' b b'} : Numeric a a' → Numeric b b' → Numeric (.add a b) (.add a' b')
  | mul {a a' b b'} : Numeric a a' → Numeric b b' → Numeric (.mul a b) (.mul a' b')

/-- Kernels that do not tell points apart, with the value they have: an infinite length scale, an infinite period, and a rational quadratic
kernel whose weighting is infinite or zero. -/
inductive Flat : PKernel → ℝ → Prop
  | exponential (s) : Flat (.exponential pinf (fin s)) s
  | laplacian (s) : Flat (.laplacian pinf (fin s)) s
  | squaredExponential (s) : Flat (.squaredExponential pinf (fin s)) s
  | pcimq (s) : Flat (.pcimq pinf (fin s)) s
  | rationalQuadratic (s a) : 0 < a → Flat (.rationalQuadratic pinf (fin s) (fin a)) s
  | weightingInf (l s) : PassesPos l → l ≠ nan → Flat (.rationalQuadratic l (fin s) pinf) s
  | weightingZero (l s) : Flat (.rationalQuadratic l (fin s) (fin 0)) s
  | matern (s p) : Flat (.matern pinf (fin s) (.int p)) (s ^ 2)
  | periodicLength (s p) : p ≠ fin 0 → p ≠ nan → Flat (.periodic pinf (fin s) p) s
  | period (l s) : PassesPos l → l ≠ nan → Flat (.periodic l (fin s) pinf) s

end Spec

namespace KernelParams

open Spec

theorem checkPosX_ok (v : Ext ℝ) : checkPosX v = .ok () ↔ PassesPos v := by
  cases v <;> simp [checkPosX, leX, Ext.lt, PassesPos]

theorem checkNonnegX_ok (v : Ext ℝ) : checkNonnegX v = .ok () ↔ PassesNonneg v := by
  cases v <;> simp [checkNonnegX, Ext.lt, PassesNonneg]

theorem intGe_ok (lo : ℤ) (n : PyNum) : checkIntGe lo n = .ok () ↔ IntFrom lo n := by
  cases n <;> simp [checkIntGe, IntFrom]

theorem poisson_ok (r : Ext ℝ) :
    (if leX r (fin 0) || leX (fin 1) r then Except.error Err.valueError else .ok () : Except Err Unit) = .ok () ↔
      (r = nan ∨ ∃ v : ℝ, 0 < v ∧ v < 1 ∧ r = fin v) := by
  cases r <;> simp [leX, Ext.lt]

theorem error_value (K : PKernel) {e : Err} (h : K.check = .error e) : e = .valueError := by
  have hp : ∀ v e, checkPosX v = .error e → e = Err.valueError := fun v e h => by
    unfold checkPosX at h; split at h <;> simp_all
  have hn : ∀ v e, checkNonnegX v = .error e → e = Err.valueError := fun v e h => by
    unfold checkNonnegX at h; split at h <;> simp_all
  have hi : ∀ lo v e, checkIntGe lo v = .error e → e = Err.valueError := fun lo v e h => by
    cases v <;> simp only [checkIntGe] at h
    · split at h <;> simp_all
    · simp_all
  have hb : ∀ (a b : Except Err Unit) e, (∀ e, a = .error e → e = Err.valueError) → (∀ e, b = .error e → e = Err.valueError) → (do a; b) = .error e → e = Err.valueError := by
    intro a b e ha hb h
    cases a with
    | error e' => exact ha e (by simpa [Bind.bind, Except.bind] using h)
    | ok u => exact hb e (by simpa [Bind.bind, Except.bind] using h)
  induction K generalizing e with
  | const c => exact hn _ _ h
  | linear s c => exact hb _ _ _ (hp s) (hn c) h
  | polynomial s c n => exact hb _ _ _ (hp s) (fun e h => hb _ _ _ (hn c) (hi 2 n) h) h
  | exponential l s => exact hb _ _ _ (hp l) (hp s) h
  | laplacian l s => exact hb _ _ _ (hp l) (hp s) h
  | squaredExponential l s => exact hb _ _ _ (hp l) (hp s) h
  | pcimq l s => exact hb _ _ _ (hp l) (hp s) h
  | rationalQuadratic l s a => exact hb _ _ _ (hp l) (fun e h => hb _ _ _ (hp s) (hn a) h) h
  | matern l s n => exact hb _ _ _ (hp l) (fun e h => hb _ _ _ (hp s) (hi 0 n) h) h
  | periodic l s p => exact hb _ _ _ (hp l) (hp s) h
  | poisson r s => exact hb _ _ _ (fun e h => by split at h <;> simp_all) (hp s) h
  | power k n ih => exact hb _ _ _ (fun e h => ih h) (hi 1 n) h
  | add a b iha ihb => exact hb _ _ _ (fun e h => iha h) (fun e h => ihb h) h
  | mul a b iha ihb => exact hb _ _ _ (fun e h => iha h) (fun e h => ihb h) h

@[simp] theorem nanMul (v : Ext ℝ) : (nan * v : Ext ℝ) = nan := by cases v <;> rfl
@[simp] theorem mulNan (v : Ext ℝ) : (v * nan : Ext ℝ) = nan := by cases v <;> rfl
@[simp] theorem divNan (v : Ext ℝ) : (v / nan : Ext ℝ) = nan := by cases v <;> rfl
@[simp] theorem negNan : (-nan : Ext ℝ) = nan := rfl
@[simp] theorem subNan (v : Ext ℝ) : (v - nan : Ext ℝ) = nan := by cases v <;> rfl
@[simp] theorem nanSub (v : Ext ℝ) : (nan - v : Ext ℝ) = nan := by cases v <;> rfl
@[simp] theorem expNan : expX nan = nan := rfl
@[simp] theorem sinNan : sinX nan = nan := rfl
@[simp] theorem sqrtNan : sqrtX nan = nan := rfl
@[simp] theorem pinfMulPinf : (pinf * pinf : Ext ℝ) = pinf := rfl
@[simp] theorem finDivPinf (a : ℝ) : (fin a / pinf : Ext ℝ) = fin 0 := rfl
@[simp] theorem finDivNinf (a : ℝ) : (fin a / ninf : Ext ℝ) = fin 0 := rfl
@[simp] theorem twoMulPinf : (fin 2 * pinf : Ext ℝ) = pinf := fin_mul_pinf two_pos

theorem powNan {n : ℤ} (h : n ≠ 0) : extPow nan n = nan := by simp [extPow, h]

theorem powX_nan_left {e : Ext ℝ} (h : e ≠ fin 0) : powX nan e = nan := by
  simp [powX, h]

theorem neg_ne_zero {a : Ext ℝ} (h : a ≠ fin 0) : -a ≠ fin 0 := by
  cases a with
  | fin a => simp_all
  | nan => simp
  | pinf => exact fun h => by cases h
  | ninf => exact fun h => by cases h

theorem toInt_ne {lo : ℤ} {n : PyNum} (h : IntFrom lo n) (h0 : 0 < lo) : n.toInt ≠ 0 := by
  obtain ⟨z, hz, rfl⟩ := h
  simp only [PyNum.toInt]
  omega

end KernelParams

open Spec KernelParams

/-- C103: what the constructors let through.  Everything refused is refused with a `ValueError`. -/
theorem C103_accepts (K : PKernel) : (K.check = .ok () ↔ Constructible K) ∧ (K.check ≠ .ok () → K.check = .error .valueError) := by
  constructor
  · induction K with
    | const c => exact checkNonnegX_ok c
    | power k n ih => simp only [PKernel.check, bind_ok_iff, Constructible, ih, intGe_ok]
    | add a b iha ihb => simp only [PKernel.check, bind_ok_iff, Constructible, iha, ihb]
    | mul a b iha ihb => simp only [PKernel.check, bind_ok_iff, Constructible, iha, ihb]
    | _ => simp only [PKernel.check, bind_ok_iff, Constructible, checkPosX_ok, checkNonnegX_ok, intGe_ok, poisson_ok]
  · intro h
    cases hc : K.check with
    | ok u => exact absurd hc h
    | error e => rw [error_value K hc]

example : (PKernel.mul (.squaredExponential nan (fin 2)) (.periodic (fin 1) pinf (fin 0))).check = .ok () :=
  (C103_accepts _).1.2 ⟨⟨.inl rfl, .inr (.inr ⟨2, by norm_num, rfl⟩)⟩, .inr (.inr ⟨1, by norm_num, rfl⟩), .inr (.inl rfl)⟩

example : (PKernel.poisson pinf (fin 1)).check = .error .valueError :=
  (C103_accepts _).2 fun h => by
    have := (C103_accepts _).1.1 h
    simp [Constructible] at this

/-- C103: where all parameters are numbers the constructors and values are those of the kernels with numbers (`KExpr`). -/
theorem C103_numbers {d : ℕ} {K : PKernel} {K' : KExpr d} (h : Numeric K K') :
    K.check = K'.check ∧ (K.check = .ok () → ∀ x y, K.compute x y = fin (K'.sem.compute x y)) := by
  have hp : ∀ v : ℝ, checkPosX (fin v) = checkPos v := fun v => by
    simp [checkPosX, checkPos, leX, Ext.lt]
  have hn : ∀ v : ℝ, checkNonnegX (fin v) = checkNonneg v := fun v => by
    simp [checkNonnegX, checkNonneg, Ext.lt]
  have hpp : ∀ {v : ℝ}, PassesPos (fin v) → 0 < v := fun {v} h => by simpa [PassesPos] using h
  constructor
  · induction h with
    | power n h ih => simp only [PKernel.check, KExpr.check, ih]
    | add ha hb iha ihb => simp only [PKernel.check, KExpr.check, iha, ihb]
    | mul ha hb iha ihb => simp only [PKernel.check, KExpr.check, iha, ihb]
    | poisson r s => simp [PKernel.check, KExpr.check, hp, leX, Ext.lt]
    | _ => simp only [PKernel.check, KExpr.check, hp, hn]
  · intro hc x y
    replace hc := (C103_accepts K).1.1 hc
    induction h with
    | const c => rfl
    | linear s c => rfl
    | polynomial s c n =>
      obtain ⟨z, hz, rfl⟩ := hc.2.2
      simp [PKernel.compute, extPow, extZpow, KExpr.sem, polynomialSem, PyNum.toInt, show ¬ z < 0 by omega]
    | exponential l s =>
      have hl := hpp hc.1
      simp only [PKernel.compute, fin_mul_fin, fin_div_fin (show 2 * (l * l) ≠ 0 by positivity), expX, KExpr.sem, exponentialSem, pow_two]
    | laplacian l s =>
      have hl := hpp hc.1
      simp only [PKernel.compute, fin_mul_fin, fin_div_fin (show 2 * (l * l) ≠ 0 by positivity), expX, KExpr.sem, laplacianSem, pow_two]
    | squaredExponential l s =>
      have hl := hpp hc.1
      simp only [PKernel.compute, fin_mul_fin, fin_div_fin (show 2 * (l * l) ≠ 0 by positivity), expX, KExpr.sem, squaredExponentialSem, pow_two]
    | pcimq l s =>
      have hl := hpp hc.1
      have h1 : 0 < 1 + sqDist x y / (2 * (l * l)) := by
        have := div_nonneg (sqDist_nonneg x y) (show 0 ≤ 2 * (l * l) by positivity)
        linarith
      simp only [PKernel.compute, fin_mul_fin, fin_div_fin (show 2 * (l * l) ≠ 0 by positivity), fin_add_fin, sqrtX, not_lt.2 h1.le, if_false,
        fin_div_fin (Real.sqrt_pos.2 h1).ne', KExpr.sem, pcimqSem, pow_two]
    | rationalQuadratic l s a ha =>
      have hl := hpp hc.1
      have ha' : 0 < a := by
        have : 0 ≤ a := by simpa [PassesNonneg] using hc.2.2
        exact lt_of_le_of_ne this (Ne.symm ha)
      have h1 : 0 < 1 + sqDist x y / (2 * a * (l * l)) := by
        have := div_nonneg (sqDist_nonneg x y) (show 0 ≤ 2 * a * (l * l) by positivity)
        linarith
      have h2 : powX (fin (1 + sqDist x y / (2 * a * (l * l)))) (fin (-a)) = fin ((1 + sqDist x y / (2 * a * (l * l))) ^ (-a)) := by
        unfold powX
        split_ifs with h
        · rcases h with h | h
          · simp [ha] at h
          · rw [Ext.fin.injEq] at h
            rw [h, Real.one_rpow]
        · simp [h1.ne']
      simp only [PKernel.compute, fin_mul_fin, fin_div_fin (show 2 * a * (l * l) ≠ 0 by positivity), fin_add_fin, neg_fin, h2, KExpr.sem, rationalQuadraticSem, pow_two]
    | matern l s n =>
      have hl := hpp hc.1
      have hf : ((2 * n.toInt.toNat).factorial : ℝ) ≠ 0 := by positivity
      have hs : ∀ (S : Finset ℕ) (f : ℕ → ℝ), (∑ i ∈ S, fin (f i) : Ext ℝ) = fin (∑ i ∈ S, f i) := fun S f => by
        induction S using Finset.cons_induction with
        | empty => rfl
        | cons a S ha ih => rw [Finset.sum_cons, Finset.sum_cons, ih, fin_add_fin]
      have he : ∀ (c : ℝ) (m : ℕ), extPow (fin c) (m : ℤ) = fin (c ^ m) := fun c m => by
        simp [extPow, extZpow]
      simp only [PKernel.compute, maternParams, fin_div_fin hl.ne', neg_fin, expX, fin_mul_fin, fin_div_fin hf, he, hs, KExpr.sem, KSem.ofCompute, maternCompute, pow_two s]
      split_ifs <;> simp
    | periodic l s p hp0 =>
      have hl := hpp hc.1
      simp only [PKernel.compute, fin_div_fin hp0, sinX, fin_mul_fin, fin_div_fin (show l * l ≠ 0 by positivity), expX, KExpr.sem, periodicSem, pow_two]
    | poisson r s =>
      have hr : 0 < r ∧ r < 1 := by simpa [Constructible] using hc.1
      have h1 : 0 < 1 - 2 * r * Real.cos (nrm x y) + r * r := by
        have := Real.cos_le_one (nrm x y)
        nlinarith [mul_le_mul_of_nonneg_left this hr.1.le, sq_nonneg (1 - r), mul_self_pos.2 (sub_pos.2 hr.2).ne']
      simp only [PKernel.compute, fin_mul_fin, fin_sub_fin, fin_add_fin, fin_div_fin h1.ne', KExpr.sem, poissonSem, pow_two]
    | power n h ih =>
      obtain ⟨z, hz, rfl⟩ := hc.2
      simp [PKernel.compute, ih hc.1, extPow, extZpow, KExpr.sem, powerSem, PyNum.toInt, show ¬ z < 0 by omega]
    | add ha hb iha ihb => simp only [PKernel.compute, iha hc.1, ihb hc.2, fin_add_fin, KExpr.sem, addSem]
    | @mul a a' b b' ha hb iha ihb =>
      simp only [PKernel.compute, iha hc.1, ihb hc.2, fin_mul_fin, KExpr.sem, mulSem]
      by_cases he : a' = b'
      · simp [he, pow_two]
      · simp [he]

example (x y : Vec 2) : (PKernel.add (.rationalQuadratic (fin 2) (fin 1) (fin 3)) (.matern (fin 1) (fin 1) (.int 2))).compute x y =
    fin ((KExpr.add (.rationalQuadratic 2 1 3) (.matern 1 1 (.int 2))).sem.compute x y) :=
  (C103_numbers (.add (.rationalQuadratic 2 1 3 (by norm_num)) (.matern 1 1 (.int 2)))).2
    ((C103_accepts _).1.2 ⟨by norm_num [Constructible, PassesPos, PassesNonneg], by norm_num [Constructible, PassesPos, IntFrom]⟩) x y

/-- C103: a kernel with a NaN parameter anywhere in it is constructed like any other and is NaN at every pair of points. -/
theorem C103_nan {d : ℕ} (K : PKernel) (hc : K.check = .ok ()) (h : HasNan K) (x y : Vec d) : K.compute x y = nan := by
  replace hc := (C103_accepts K).1.1 hc
  induction K with
  | const c => exact h
  | linear s c => rcases h with rfl | rfl <;> simp [PKernel.compute]
  | polynomial s c n =>
    have := powNan (toInt_ne hc.2.2 (by norm_num))
    rcases h with rfl | rfl <;> simp [PKernel.compute, this]
  | exponential l s => rcases h with rfl | rfl <;> simp [PKernel.compute]
  | laplacian l s => rcases h with rfl | rfl <;> simp [PKernel.compute]
  | squaredExponential l s => rcases h with rfl | rfl <;> simp [PKernel.compute]
  | pcimq l s => rcases h with rfl | rfl <;> simp [PKernel.compute]
  | rationalQuadratic l s a =>
    rcases h with ⟨rfl, h⟩ | rfl | rfl
    · simp [PKernel.compute, powX_nan_left (neg_ne_zero h)]
    · simp [PKernel.compute]
    · simp [PKernel.compute, powX_nan_left]
  | matern l s n => rcases h with rfl | rfl <;> simp [PKernel.compute, maternParams]
  | periodic l s p => rcases h with rfl | rfl | rfl <;> simp [PKernel.compute]
  | poisson r s => rcases h with rfl | rfl <;> simp [PKernel.compute]
  | power k n ih => simp [PKernel.compute, ih h hc.1, powNan (toInt_ne hc.2 (by norm_num))]
  | add a b iha ihb =>
    rcases h with h | h
    · simp [PKernel.compute, iha h hc.1]
    · simp [PKernel.compute, ihb h hc.2]
  | mul a b iha ihb =>
    rcases h with h | h
    · simp [PKernel.compute, iha h hc.1]
    · simp [PKernel.compute, ihb h hc.2]

example := C103_nan (d := 2) (.add (.squaredExponential (fin 1) (fin 1)) (.power (.pcimq nan (fin 2)) (.int 3)))
  ((C103_accepts _).1.2 ⟨by norm_num [Constructible, PassesPos], by norm_num [Constructible, PassesPos], by norm_num [IntFrom]⟩) (.inr (.inl rfl)) ![1, 2] ![3, 4]

/-- C103: with such a kernel the discrepancy of any two data sets is NaN, and herding returns the last row in every place, without an
error. -/
theorem C103_nan_use {d : ℕ} (K : PKernel) (hc : K.check = .ok ()) (h : HasNan K) (big : ℝ) {n m : ℕ} [NeZero n] (hm : 0 < m) (x : Data n (Vec d) ℝ) (y : Data m (Vec d) ℝ)
    {bs : PyTree (Option ℤ)} (hbs : ValidBlock bs) (u : Bool) {size : ℕ} (hs : 0 < size) (hn : size ≤ n) (ord : List (Fin (size + (size - size)))) :
    mmdComputeX big K.compute x y bs = .ok nan ∧
      ∃ r, herdingReduceX big K.compute u bs size x ord = .ok r ∧ ∀ t, ((gatherIdx n (r.1.data t) : Fin n) : ℕ) = n - 1 := by
  refine ⟨C98_mmd_nan big _ (NeZero.pos n) hm x y hbs (.inl ⟨0, 0, C103_nan K hc h _ _⟩), ?_⟩
  obtain ⟨⟨rm, h1, -, -⟩, h2⟩ := C98_herding big K.compute x (fun i => ⟨i, C103_nan K hc h _ _⟩) u hbs hs hn ord
  exact ⟨_, h1, fun _ => h2⟩

example := C103_nan_use (d := 2) (.squaredExponential nan (fin 1)) ((C103_accepts _).1.2 (by norm_num [Constructible, PassesPos])) (.inl rfl) 1000 (n := 3) (m := 1) (by norm_num)
  ⟨![![1, 2], ![3, 4], ![5, 6]], ![1, 1, 2]⟩ ⟨![![1, 2]], ![1]⟩ (bs := .leaf none) (.inl rfl) true (size := 2) (by norm_num) (by norm_num) [0, 1]

/-- C103: the usual way to get there.  The median heuristic of fewer than two rows is NaN, and a squared exponential kernel with this length
scale can be constructed, is NaN everywhere and makes every discrepancy NaN. -/
theorem C103_median {d : ℕ} {j : ℕ} (rows : Fin j → Vec d) (hj : j < 2) (s : ℝ) (hs : 0 < s) :
    (PKernel.squaredExponential (medianFloat rows) (fin s)).check = .ok () ∧
      (∀ x y : Vec d, (PKernel.squaredExponential (medianFloat rows) (fin s)).compute x y = nan) ∧
      ∀ (big : ℝ) {n m : ℕ} (_ : 0 < n) (_ : 0 < m) (x : Data n (Vec d) ℝ) (y : Data m (Vec d) ℝ) {bs : PyTree (Option ℤ)}, ValidBlock bs →
        mmdComputeX big (PKernel.squaredExponential (medianFloat rows) (fin s)).compute x y bs = .ok nan := by
  have e : medianFloat rows = nan := by rw [medianFloat, (C43_nan_iff rows).2 hj]
  rw [e]
  have hc : (PKernel.squaredExponential nan (fin s)).check = .ok () := (C103_accepts _).1.2 ⟨.inl rfl, .inr (.inr ⟨s, hs, rfl⟩)⟩
  exact ⟨hc, fun x y => C103_nan _ hc (.inl rfl) x y, fun big n m hn hm x y bs hbs =>
    C98_mmd_nan big _ hn hm x y hbs (.inl ⟨⟨0, hn⟩, ⟨0, hn⟩, C103_nan _ hc (.inl rfl) _ _⟩)⟩

example := C103_median (d := 2) (j := 1) ![![1, 2]] (by norm_num) 1 one_pos

/-- C103: kernels that do not tell points apart.  In particular a rational quadratic kernel with infinite weighting is constant and not the
squared exponential kernel that it tends to for large weightings. -/
theorem C103_flat {d : ℕ} {K : PKernel} {v : ℝ} (h : Flat K v) (x y : Vec d) : K.compute x y = fin v := by
  cases h with
  | exponential s => simp [PKernel.compute, expX]
  | laplacian s => simp [PKernel.compute, expX]
  | squaredExponential s => simp [PKernel.compute, expX]
  | pcimq s =>
    simp only [PKernel.compute, pinfMulPinf, twoMulPinf, finDivPinf, fin_add_fin, add_zero, sqrtX]
    norm_num [fin_div_fin]
  | rationalQuadratic s a ha =>
    have : (fin 2 * fin a * (pinf * pinf) : Ext ℝ) = pinf := by
      rw [fin_mul_fin, pinfMulPinf, fin_mul_pinf (by positivity)]
    simp only [PKernel.compute, this, finDivPinf, fin_add_fin, add_zero]
    simp [powX]
  | weightingInf l s hl hl' =>
    have : (fin 2 * pinf * (l * l) : Ext ℝ) = pinf := by
      rcases hl with rfl | rfl | ⟨r, hr, rfl⟩
      · exact absurd rfl hl'
      · simp
      · change Ext.mul (Ext.mul _ _) (Ext.mul _ _) = _
        simp [Ext.mul, Ext.signMul, hr.ne', hr]
    simp only [PKernel.compute, this, finDivPinf, fin_add_fin, add_zero]
    simp [powX]
  | weightingZero l s => simp [PKernel.compute, powX]
  | matern s p =>
    have hf : ∀ q : ℕ, ((2 * q).factorial : ℝ) ≠ 0 := fun q => by positivity
    have hq : ∀ q : ℕ, ((q).factorial : ℝ) ≠ 0 := fun q => by positivity
    simp only [PKernel.compute, maternParams, finDivPinf, neg_fin, neg_zero, expX, fin_mul_fin, Real.exp_zero, fin_div_fin (hf _), mul_zero, PyNum.toInt]
    generalize p.toNat = q
    by_cases h0 : 0 < q
    · rw [if_pos h0, Finset.sum_eq_single q]
      · simp only [Nat.sub_self, extPow, extZpow]
        norm_num
        field_simp
        rw [← two_mul]
      · intro i hi hne
        have : 0 < q - i := by have := Finset.mem_range.1 hi; omega
        have h1 : ((0 : ℝ) ^ ((q - i : ℕ) : ℤ)) = 0 := by rw [zpow_natCast, zero_pow this.ne']
        simp only [extPow, extZpow, h1]
        simp [show ¬ ((q - i : ℕ) : ℤ) < 0 by omega]
        rfl
      · simp
    · have : q = 0 := by omega
      subst this
      simp [pow_two]
  | periodicLength s p hp hp' =>
    have : ∃ r : ℝ, sinX (fin (Real.pi * nrm x y) / p) = fin r := by
      cases p with
      | nan => exact absurd rfl hp'
      | ninf => exact ⟨_, rfl⟩
      | pinf => exact ⟨_, rfl⟩
      | fin p =>
        rw [fin_div_fin (fun h => hp (by rw [h]))]
        exact ⟨_, rfl⟩
    obtain ⟨r, hr⟩ := this
    simp [PKernel.compute, hr, expX]
  | period l s hl hl' =>
    rcases hl with rfl | rfl | ⟨r, hr, rfl⟩
    · exact absurd rfl hl'
    · simp [PKernel.compute, sinX, expX]
    · have : r * r ≠ 0 := by positivity
      simp [PKernel.compute, sinX, expX, fin_div_fin this]

example (x y : Vec 2) : (PKernel.rationalQuadratic (fin 2) (fin 3) pinf).compute x y = fin 3 :=
  C103_flat (.weightingInf _ _ (.inr (.inr ⟨2, by norm_num, rfl⟩)) (by simp)) x y

/-- C103: such a kernel takes any two data sets for the same. -/
theorem C103_flat_mmd {d : ℕ} {K : PKernel} {v : ℝ} (h : Flat K v) (big : ℝ) {n m : ℕ} (hn : 0 < n) (hm : 0 < m) (x : Data n (Vec d) ℝ) (y : Data m (Vec d) ℝ)
    (hx : ∑ i, x.weights i ≠ 0) (hy : ∑ i, y.weights i ≠ 0) {bs : PyTree (Option ℤ)} (hbs : ValidBlock bs) :
    mmdComputeX big K.compute x y bs = .ok (fin 0) := by
  rw [(C98_metrics_numbers big K.compute (fun _ _ => v) x y bs Set.univ trivial (fun _ => trivial) (fun _ => trivial) (fun a _ b _ => C103_flat h a b)).1,
    C07_compute big _ hn hm x y hx hy bs hbs]
  have : mmdSq (fun _ _ : Vec d => v) x.data x.weights y.data y.weights = 0 := by
    simp only [mmdSq, KernelSums.avg_const hx, KernelSums.avg_const hy]
    ring
  simp [this]

example := C103_flat_mmd (d := 2) (.squaredExponential 1) 1000 (n := 2) (m := 1) (by norm_num) (by norm_num) ⟨![![1, 2], ![3, 4]], ![1, 1]⟩ ⟨![![50, 2]], ![1]⟩
  (by norm_num) (by norm_num) (bs := .leaf none) (.inl rfl)

/-- C103: a period of zero is accepted and makes the periodic kernel NaN at every pair of points. -/
theorem C103_period_zero {d : ℕ} (l s : Ext ℝ) (hl : PassesPos l) (hs : PassesPos s) :
    (PKernel.periodic l s (fin 0)).check = .ok () ∧ ∀ x y : Vec d, (PKernel.periodic l s (fin 0)).compute x y = nan := by
  refine ⟨(C103_accepts _).1.2 ⟨hl, hs⟩, fun x y => ?_⟩
  have : sinX (fin (Real.pi * nrm x y) / fin 0) = nan := by
    change sinX (Ext.div _ _) = nan
    simp only [Ext.div, if_true]
    split_ifs <;> rfl
  simp [PKernel.compute, this]

example := C103_period_zero (d := 2) (fin 1) (fin 1) (.inr (.inr ⟨1, one_pos, rfl⟩)) (.inr (.inr ⟨1, one_pos, rfl⟩))

/-- C103: an infinite output scale is accepted; the kernels with positive values are infinite everywhere. -/
theorem C103_scale_infinite {d : ℕ} (l : ℝ) (hl : 0 < l) (x y : Vec d) :
    (∀ K ∈ [PKernel.exponential (fin l) pinf, .laplacian (fin l) pinf, .squaredExponential (fin l) pinf, .pcimq (fin l) pinf], K.check = .ok () ∧ K.compute x y = pinf) := by
  have hpos : ∀ r : ℝ, (pinf * fin (Real.exp r) : Ext ℝ) = pinf := fun r => by
    change Ext.signMul _ _ = _
    simp [Ext.signMul, (Real.exp_pos r).ne', Real.exp_pos]
  have h2 : 2 * (l * l) ≠ 0 := by positivity
  have hP : PassesPos (fin l) := .inr (.inr ⟨l, hl, rfl⟩)
  have hI : PassesPos pinf := .inr (.inl rfl)
  have h1 : 0 < 1 + sqDist x y / (2 * (l * l)) := by
    have := div_nonneg (sqDist_nonneg x y) (show 0 ≤ 2 * (l * l) by positivity)
    linarith
  intro K hK
  simp only [List.mem_cons, List.mem_nil_iff, or_false] at hK
  rcases hK with rfl | rfl | rfl | rfl
  · exact ⟨(C103_accepts _).1.2 ⟨hP, hI⟩, by simp only [PKernel.compute, fin_mul_fin, fin_div_fin h2, expX, hpos]⟩
  · exact ⟨(C103_accepts _).1.2 ⟨hP, hI⟩, by simp only [PKernel.compute, fin_mul_fin, fin_div_fin h2, expX, hpos]⟩
  · exact ⟨(C103_accepts _).1.2 ⟨hP, hI⟩, by simp only [PKernel.compute, fin_mul_fin, fin_div_fin h2, expX, hpos]⟩
  · exact ⟨(C103_accepts _).1.2 ⟨hP, hI⟩, by
      simp only [PKernel.compute, fin_mul_fin, fin_div_fin h2, fin_add_fin, sqrtX, not_lt.2 h1.le, if_false, pinf_div_fin (Real.sqrt_nonneg _)]⟩

example := C103_scale_infinite (d := 2) 1 one_pos ![1, 2] ![3, 4]

/-- C103: composite kernels of something that is no kernel are refused with a `TypeError`, but a bad power is reported first, as a
`ValueError`. -/
theorem C103_composite (a b : KArg) (n : PyNum) (make : PKernel → PKernel → PKernel) :
    (∀ K, powerInit a n = .ok K ↔ ∃ k, a = .kernel k ∧ IntFrom 1 n ∧ K = .power k n) ∧
      (powerInit a n = .error .valueError ↔ ¬ IntFrom 1 n) ∧ (powerInit a n = .error .typeError ↔ IntFrom 1 n ∧ a = .other) ∧
      (∀ K, duoInit make a b = .ok K ↔ ∃ k l, a = .kernel k ∧ b = .kernel l ∧ K = make k l) ∧
      (duoInit make a b = .error .typeError ↔ a = .other ∨ b = .other) := by
  have hi := intGe_ok 1 n
  have hv : checkIntGe 1 n = .ok () ∨ checkIntGe 1 n = .error .valueError := by
    cases n <;> simp only [checkIntGe]
    · split_ifs <;> simp
    · simp
  rcases hv with hv | hv
  · have h1 := hi.1 hv
    cases a <;> cases b <;> simp [powerInit, duoInit, hv, h1, eq_comm]
  · have h1 : ¬ IntFrom 1 n := fun h => by rw [hi.2 h] at hv; cases hv
    cases a <;> cases b <;> simp [powerInit, duoInit, hv, h1, eq_comm]

example : powerInit .other (.int 0) = .error .valueError ∧ powerInit .other (.int 2) = .error .typeError ∧
    duoInit .add (.kernel (.const nan)) .other = .error .typeError := by
  refine ⟨(C103_composite .other .other (.int 0) .add).2.1.2 ?_, (C103_composite .other .other (.int 2) .add).2.2.1.2 ⟨⟨2, by norm_num, rfl⟩, rfl⟩, rfl⟩
  rintro ⟨z, hz, h⟩
  cases h
  norm_num at hz

end Coreax
