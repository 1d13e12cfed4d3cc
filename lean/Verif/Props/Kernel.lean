import Verif.Props.KernelGrad
import Verif.Lemmas.SteinPSD
import Mathlib.Analysis.SpecialFunctions.Trigonometric.DerivHyp
import Mathlib.Analysis.Calculus.ContDiff.Operations

/-!
# C08: symmetry and positive semi-definiteness of the kernels
-/

set_option linter.unusedSectionVars false

namespace Coreax

open Spec

variable {d : ℕ}

/-! ### Smooth kernels -/

/-- Kernels that are twice continuously differentiable everywhere and whose derivative formulas never divide by zero:
those usable under a Stein kernel. -/
def KExpr.Smooth : KExpr d → Prop
  | .const _ => True
  | .linear _ _ => True
  | .polynomial _ _ _ => True
  | .squaredExponential _ _ => True
  | .pcimq _ _ => True
  | .rationalQuadratic _ _ a => a ≠ 0
  | .poisson _ _ => d = 1
  | .power k n => k.Smooth ∧ (n.toInt ≠ 1 ∨ ∀ x y, k.sem.compute x y ≠ 0)
  | .add a b => a.Smooth ∧ b.Smooth
  | .mul a b => a.Smooth ∧ b.Smooth
  | _ => False

theorem KExpr.Smooth.smoothAt {K : KExpr d} (h : K.Smooth) (x y : Vec d) : K.SmoothAt x y := by
  induction K with
  | power k n ih => exact ih h.1
  | add a b iha ihb => exact ⟨iha h.1, ihb h.2⟩
  | mul a b iha ihb => exact ⟨iha h.1, ihb h.2⟩
  | rationalQuadratic l s a => exact h
  | poisson r s => exact h
  | const c => trivial
  | linear s c => trivial
  | polynomial s c n => trivial
  | squaredExponential l s => trivial
  | pcimq l s => trivial
  | _ => exact h.elim

theorem KExpr.Smooth.divSmoothAt {K : KExpr d} (h : K.Smooth) (x y : Vec d) : K.DivSmoothAt x y := by
  induction K with
  | power k n ih => exact ⟨ih h.1, h.2.imp_right fun h => h x y⟩
  | add a b iha ihb => exact ⟨iha h.1, ihb h.2⟩
  | mul a b iha ihb => exact ⟨iha h.1, ihb h.2⟩
  | periodic l s p => exact h.elim
  | stein k s => exact h.elim
  | _ => trivial

theorem contDiff_sqDist : ContDiff ℝ 2 (fun p : Vec d × Vec d => sqDist p.1 p.2) := by
  unfold sqDist
  fun_prop

theorem contDiff_vdot : ContDiff ℝ 2 (fun p : Vec d × Vec d => vdot p.1 p.2) := by
  unfold vdot
  fun_prop

theorem zpow_eq_pow {n : ℤ} (hn : 0 ≤ n) (t : ℝ) : t ^ n = t ^ n.toNat := by
  conv_lhs => rw [← Int.toNat_of_nonneg hn]
  rw [zpow_natCast]

theorem cos_nrm_one (x y : Vec 1) : Real.cos (nrm x y) = Real.cos (x 0 - y 0) := by rw [nrm_one, Real.cos_abs]

theorem KExpr.Smooth.contDiff {K : KExpr d} (h : K.Smooth) (hc : K.check = .ok ()) :
    ContDiff ℝ 2 (fun p : Vec d × Vec d => K.sem.compute p.1 p.2) := by
  induction K with
  | const c => exact contDiff_const
  | linear s c => exact (contDiff_const.mul contDiff_vdot).add contDiff_const
  | polynomial s c n =>
    have hn : 0 ≤ n.toInt := le_trans (by norm_num) (checkIntGe_ok (bind_ok (bind_ok hc).2).2)
    simp only [KExpr.sem, polynomialSem, zpow_eq_pow hn]
    exact contDiff_const.mul ((contDiff_vdot.add contDiff_const).pow _)
  | squaredExponential l s => exact contDiff_const.mul (contDiff_sqDist.neg.div_const _).exp
  | pcimq l s =>
    have hp : ∀ p : Vec d × Vec d, 0 < 1 + sqDist p.1 p.2 / (2 * l ^ 2) := fun p => by
      have := sqDist_nonneg p.1 p.2
      positivity
    refine contDiff_const.div ((contDiff_const.add (contDiff_sqDist.div_const _)).sqrt fun p => (hp p).ne') fun p => ?_
    exact (Real.sqrt_pos.2 (hp p)).ne'
  | rationalQuadratic l s a =>
    have ha : 0 ≤ a := checkNonneg_ok (bind_ok (bind_ok hc).2).2
    have hp : ∀ p : Vec d × Vec d, 0 < 1 + sqDist p.1 p.2 / (2 * a * l ^ 2) := fun p => by
      have := sqDist_nonneg p.1 p.2
      positivity
    exact contDiff_const.mul ((contDiff_const.add (contDiff_sqDist.div_const _)).rpow_const_of_ne fun p => (hp p).ne')
  | poisson r s =>
    obtain rfl : d = 1 := h
    have hr := poissonCheck_ok (bind_ok hc).1
    simp only [KExpr.sem, poissonSem, cos_nrm_one]
    refine contDiff_const.div ?_ fun p => (poisson_den_pos hr.1 hr.2 _).ne'
    fun_prop
  | power k n ih =>
    have hn : 0 ≤ n.toInt := le_trans (by norm_num) (checkIntGe_ok (bind_ok hc).2)
    simp only [KExpr.sem, powerSem, zpow_eq_pow hn]
    exact (ih h.1 (bind_ok hc).1).pow _
  | add a b iha ihb => exact (iha h.1 (bind_ok hc).1).add (ihb h.2 (bind_ok hc).2)
  | mul a b iha ihb =>
    simp only [KExpr.sem, mulSem]
    split
    · exact (iha h.1 (bind_ok hc).1).pow 2
    · exact (iha h.1 (bind_ok hc).1).mul (ihb h.2 (bind_ok hc).2)
  | _ => exact h.elim

/-! ### Positive semi-definiteness -/

theorem isSqDist_sqDist : IsSqDist (sqDist : Vec d → Vec d → ℝ) := by
  have := IsSqDist.sum Finset.univ (fun (i : Fin d) _ => isSqDist_real (fun x : Vec d => x i))
  have e : (sqDist : Vec d → Vec d → ℝ) = fun a b => ∑ i, (a i - b i) ^ 2 := by
    funext a b
    simp only [sqDist, pow_two]
  rwa [e]

theorem isPSD_vdot : IsPSD (vdot : Vec d → Vec d → ℝ) :=
  (isPSD_sum Finset.univ fun (i : Fin d) _ => isPSD_rankOne (fun x : Vec d => x i)).congr fun _ _ => rfl

theorem maternCompute_eq (l s : ℝ) (p : ℕ) (x y : Vec d) :
    maternCompute l s p x y = s ^ 2 * p.factorial / (2 * p).factorial
      * matG p (Real.sqrt (2 * p + 1) / l * Real.sqrt (sqDist x y + 0)) := by
  have key : ∀ v : ℝ, (if 0 < p then ∑ i ∈ Finset.range (p + 1),
      ((p + i).factorial : ℝ) / (i.factorial * (p - i).factorial) * v ^ (p - i) else 1) = bessQ p v := by
    intro v
    split_ifs with hp
    · rw [bessQ, ← Finset.sum_range_reflect]
      refine Finset.sum_congr rfl fun j hj => ?_
      have hj := Finset.mem_range.1 hj
      rw [bessC, show p + (p + 1 - 1 - j) = 2 * p - j by omega, show p + 1 - 1 - j = p - j by omega,
        show p - (p - j) = j by omega]
    · obtain rfl : p = 0 := by omega
      simp [bessQ, bessC]
  simp only [maternCompute, key, matG, nrm_eq, add_zero]
  rw [show Real.sqrt (2 * p + 1) * Real.sqrt (sqDist x y) / l = Real.sqrt (2 * p + 1) / l * Real.sqrt (sqDist x y) by ring]
  ring

/-- Where positive semi-definiteness holds: the periodic and Poisson kernels in one dimension only (see the negative
theorems below), no zero period or weighting (the code divides by them), and Stein kernels over smooth kernels whose
derivatives have the right shape. -/
def KExpr.PsdDomain : KExpr d → Prop
  | .rationalQuadratic _ _ a => a ≠ 0
  | .periodic _ _ p => d = 1 ∧ p ≠ 0
  | .poisson _ _ => d = 1
  | .power k _ => k.PsdDomain
  | .add a b => a.PsdDomain ∧ b.PsdDomain
  | .mul a b => a.PsdDomain ∧ b.PsdDomain
  | .stein k _ => k.PsdDomain ∧ k.Smooth ∧ k.gradIsVec = true ∧ k.divIsVec = false
  | _ => True

/-- **C08.** Every kernel that the library lets one construct, arbitrarily nested, is symmetric and positive
semi-definite: for all finite point sets of any size in all dimensions and all coefficient vectors. -/
theorem C08_psd (K : KExpr d) (hc : K.check = .ok ()) (hd : K.PsdDomain) : IsPSD K.sem.compute := by
  induction K with
  | const c => exact isPSD_const (checkNonneg_ok hc)
  | linear s c =>
    exact (isPSD_vdot.smul (checkPos_ok (bind_ok hc).1).le).add (isPSD_const (checkNonneg_ok (bind_ok hc).2))
  | polynomial s c n =>
    have hn : 0 ≤ n.toInt := le_trans (by norm_num) (checkIntGe_ok (bind_ok (bind_ok hc).2).2)
    have h1 := (isPSD_vdot (d := d)).add (isPSD_const (checkNonneg_ok (bind_ok (bind_ok hc).2).1))
    exact ((h1.pow n.toInt.toNat).smul (checkPos_ok (bind_ok hc).1).le).congr fun x y => by
      simp only [KExpr.sem, polynomialSem, zpow_eq_pow hn]
  | exponential l s =>
    have hl := checkPos_ok (bind_ok hc).1
    refine ((isSqDist_sqDist.exp_sqrt le_rfl (a := 1 / (2 * l ^ 2)) (by positivity)).smul
      (checkPos_ok (bind_ok hc).2).le).congr fun x y => ?_
    simp only [KExpr.sem, exponentialSem, nrm_eq, add_zero]
    congr 2
    ring
  | laplacian l s =>
    have hl := checkPos_ok (bind_ok hc).1
    have h1 : IsCND (fun x y : Vec d => ∑ i : Fin d, Real.sqrt ((x i - y i) ^ 2 + 0)) :=
      IsCND.sum Finset.univ fun (i : Fin d) _ => (isSqDist_real (fun x : Vec d => x i)).sqrt_isCND le_rfl
    refine ((h1.smul (r := 1 / (2 * l ^ 2)) (by positivity)).exp_neg.smul (checkPos_ok (bind_ok hc).2).le).congr
      fun x y => ?_
    simp only [KExpr.sem, laplacianSem, nrm1, add_zero, Real.sqrt_sq_eq_abs]
    congr 2
    ring
  | squaredExponential l s =>
    have hl := checkPos_ok (bind_ok hc).1
    refine ((isSqDist_sqDist.2 (1 / (2 * l ^ 2)) (by positivity)).smul (checkPos_ok (bind_ok hc).2).le).congr fun x y => ?_
    simp only [KExpr.sem, squaredExponentialSem]
    congr 2
    ring
  | pcimq l s =>
    have hl := checkPos_ok (bind_ok hc).1
    refine (((isSqDist_sqDist.scale (r := 1 / (2 * l ^ 2)) (by positivity)).inv_pow zero_lt_one
      (p := 1 / 2) (by norm_num)).smul (checkPos_ok (bind_ok hc).2).le).congr fun x y => ?_
    have hp : 0 ≤ 1 + 1 / (2 * l ^ 2) * sqDist x y := by
      have := sqDist_nonneg x y
      positivity
    rw [Real.rpow_neg hp, ← Real.sqrt_eq_rpow]
    simp only [KExpr.sem, pcimqSem]
    rw [div_eq_mul_inv s, show 1 + sqDist x y / (2 * l ^ 2) = 1 + 1 / (2 * l ^ 2) * sqDist x y by ring]
  | rationalQuadratic l s a =>
    have hl := checkPos_ok (bind_ok hc).1
    have ha : 0 < a := lt_of_le_of_ne (checkNonneg_ok (bind_ok (bind_ok hc).2).2) (Ne.symm hd)
    refine (((isSqDist_sqDist.scale (r := 1 / (2 * a * l ^ 2)) (by positivity)).inv_pow zero_lt_one ha).smul
      (checkPos_ok (bind_ok (bind_ok hc).2).1).le).congr fun x y => ?_
    simp only [KExpr.sem, rationalQuadraticSem]
    congr 2
    ring
  | matern l s n =>
    have hl := checkPos_ok (bind_ok hc).1
    refine (((isSqDist_sqDist (d := d)).matern (a := Real.sqrt (2 * n.toInt.toNat + 1) / l) (by positivity) n.toInt.toNat
      le_rfl).smul (a := s ^ 2 * n.toInt.toNat.factorial / (2 * n.toInt.toNat).factorial) (by positivity)).congr
      fun x y => maternCompute_eq l s _ x y
  | periodic l s p =>
    obtain ⟨rfl, hp⟩ := hd
    have hl := checkPos_ok (bind_ok hc).1
    have h1 := ((isPSD_cos fun x : Vec 1 => 2 * Real.pi / p * x 0).smul (a := 1 / l ^ 2) (by positivity)).exp
    refine (h1.smul (a := s * Real.exp (-(1 / l ^ 2)))
      (mul_nonneg (checkPos_ok (bind_ok hc).2).le (Real.exp_pos _).le)).congr fun x y => ?_
    simp only [KExpr.sem, periodicSem]
    rw [mul_assoc, ← Real.exp_add]
    congr 2
    rw [show -2 * Real.sin (Real.pi * nrm x y / p) ^ 2 / l ^ 2 = (-2 * Real.sin (Real.pi * nrm x y / p) ^ 2) * (1 / l ^ 2) by ring,
      show 2 * Real.pi / p * x 0 - 2 * Real.pi / p * y 0 = 2 * (Real.pi * (x 0 - y 0) / p) by ring, Real.cos_two_mul,
      Real.cos_sq']
    have : Real.sin (Real.pi * nrm x y / p) ^ 2 = Real.sin (Real.pi * (x 0 - y 0) / p) ^ 2 := by
      rw [nrm_one]
      rcases abs_choice (x 0 - y 0) with h | h
      · rw [h]
      · rw [h, show Real.pi * -(x 0 - y 0) / p = -(Real.pi * (x 0 - y 0) / p) by ring, Real.sin_neg, neg_sq]
    rw [this]
    ring
  | poisson r s =>
    obtain rfl : d = 1 := hd
    obtain ⟨hr0, hr1⟩ := poissonCheck_ok (bind_ok hc).1
    have hq : 0 ≤ 2 * r / (1 + r ^ 2) := by positivity
    have hq1 : 2 * r / (1 + r ^ 2) < 1 := by
      rw [div_lt_one (by positivity)]
      nlinarith [sq_pos_of_pos (sub_pos.2 hr1)]
    have h1 := ((isPSD_cos fun x : Vec 1 => x 0).smul hq).geom (fun x y => by
      rw [abs_mul, abs_of_nonneg hq]
      calc _ ≤ 2 * r / (1 + r ^ 2) * 1 := mul_le_mul_of_nonneg_left (Real.abs_cos_le_one _) hq
        _ < 1 := by rwa [mul_one])
    have hs := checkPos_ok (bind_ok hc).2
    refine (h1.smul (a := s / (1 + r ^ 2)) (by positivity)).congr fun x y => ?_
    have h2 := poisson_den_pos hr0 hr1 (x 0 - y 0)
    simp only [KExpr.sem, poissonSem, cos_nrm_one]
    rw [show 1 - 2 * r / (1 + r ^ 2) * Real.cos (x 0 - y 0) = (1 - 2 * r * Real.cos (x 0 - y 0) + r ^ 2) / (1 + r ^ 2) by
      have : (1 : ℝ) + r ^ 2 ≠ 0 := by positivity
      field_simp
      ring]
    have : (1 : ℝ) + r ^ 2 ≠ 0 := by positivity
    field_simp
  | power k n ih =>
    have hn : 0 ≤ n.toInt := le_trans (by norm_num) (checkIntGe_ok (bind_ok hc).2)
    exact ((ih (bind_ok hc).1 hd).pow n.toInt.toNat).congr fun x y => by simp only [KExpr.sem, powerSem, zpow_eq_pow hn]
  | add a b iha ihb => exact (iha (bind_ok hc).1 hd.1).add (ihb (bind_ok hc).2 hd.2)
  | mul a b iha ihb =>
    have ha := iha (bind_ok hc).1 hd.1
    have hb := ihb (bind_ok hc).2 hd.2
    by_cases he : a = b
    · exact (ha.pow 2).congr fun x y => by simp [KExpr.sem, mulSem, he]
    · exact (ha.mul hb).congr fun x y => by simp [KExpr.sem, mulSem, he]
  | stein k score ih =>
    exact stein_isPSD k.sem score (ih hc hd.1) (hd.2.1.contDiff hc)
      (fun x y => gradOk_of_smooth k x y hc (hd.2.1.smoothAt x y))
      (fun x y => isDiv_of_smooth k x y hc (hd.2.1.smoothAt x y) (hd.2.1.divSmoothAt x y))

example := C08_psd (.add (.mul (.squaredExponential 1 2) (.laplacian 3 1)) (.linear 1 0) : KExpr 3) (by norm_num [KExpr.check, checkPos, checkNonneg, checkIntGe, bind, Except.bind]) ⟨⟨trivial, trivial⟩, trivial⟩

/-- The same for an explicit set of points of any finite index type. -/
theorem C08_gram_nonneg (K : KExpr d) (hc : K.check = .ok ()) (hd : K.PsdDomain) {n : ℕ} (x : Fin n → Vec d)
    (c : Fin n → ℝ) : 0 ≤ ∑ i, ∑ j, c i * c j * K.sem.compute (x i) (x j) := (C08_psd K hc hd).2 n x c

/-- A nested kernel meeting the hypotheses in three dimensions, with a Stein kernel inside. -/
example : let S : KExpr 3 := .stein (.add (.rationalQuadratic 1 1 (1 / 2)) (.linear 1 0)) (fun x => -x)
    let K : KExpr 3 := .add (.power (.mul (.matern 1 2 (.int 2)) (.laplacian 3 1)) (.int 2)) S
    K.check = .ok () ∧ K.PsdDomain := by
  intro S K
  refine ⟨?_, ⟨trivial, trivial⟩, ?_⟩
  · norm_num [K, S, KExpr.check, checkPos, checkNonneg, checkIntGe, bind, Except.bind]
  · norm_num [S, KExpr.PsdDomain, KExpr.Smooth, KExpr.gradIsVec, KExpr.divIsVec]

/-! ### Which parameters are accepted -/

/-- The documented ranges of the parameters. -/
def Spec.Admissible : KExpr d → Prop
  | .const c => 0 ≤ c
  | .linear s c => 0 < s ∧ 0 ≤ c
  | .polynomial s c n => 0 < s ∧ 0 ≤ c ∧ ∃ z : ℤ, n = .int z ∧ 1 < z
  | .exponential l s => 0 < l ∧ 0 < s
  | .laplacian l s => 0 < l ∧ 0 < s
  | .squaredExponential l s => 0 < l ∧ 0 < s
  | .pcimq l s => 0 < l ∧ 0 < s
  | .rationalQuadratic l s a => 0 < l ∧ 0 < s ∧ 0 ≤ a
  | .matern l s n => 0 < l ∧ 0 < s ∧ ∃ z : ℤ, n = .int z ∧ 0 ≤ z
  | .periodic l s _ => 0 < l ∧ 0 < s
  | .poisson r s => (0 < r ∧ r < 1) ∧ 0 < s
  | .power k n => Spec.Admissible k ∧ ∃ z : ℤ, n = .int z ∧ 0 < z
  | .add a b => Spec.Admissible a ∧ Spec.Admissible b
  | .mul a b => Spec.Admissible a ∧ Spec.Admissible b
  | .stein k _ => Spec.Admissible k

theorem checkPos_iff (v : ℝ) : checkPos v = .ok () ↔ 0 < v := by
  unfold checkPos
  split_ifs with h
  · simp [h]
  · simpa using h

theorem checkNonneg_iff (v : ℝ) : checkNonneg v = .ok () ↔ 0 ≤ v := by
  unfold checkNonneg
  split_ifs with h
  · simp [h]
  · simpa using h

theorem checkIntGe_iff (lo : ℤ) (v : PyNum) : checkIntGe lo v = .ok () ↔ ∃ z : ℤ, v = .int z ∧ lo ≤ z := by
  cases v with
  | int z =>
    simp only [checkIntGe, PyNum.int.injEq, exists_eq_left']
    split_ifs with h <;> simp <;> omega
  | float v => simp [checkIntGe]

theorem bind_ok_iff (a b : Except Err Unit) : (do a; b) = .ok () ↔ a = .ok () ∧ b = .ok () := by
  cases a with
  | error e => simp [Bind.bind, Except.bind]
  | ok u => simp [Bind.bind, Except.bind]

/-- A kernel expression is accepted exactly when all its parameters, at every depth, are in their documented ranges. -/
theorem C08_check_iff (K : KExpr d) : K.check = .ok () ↔ Spec.Admissible K := by
  induction K with
  | poisson r s =>
    simp only [KExpr.check, Spec.Admissible, bind_ok_iff, checkPos_iff]
    refine and_congr ?_ Iff.rfl
    split_ifs with h
    · simp only [reduceCtorEq, false_iff]
      rintro ⟨h1, h2⟩
      rcases h with h | h <;> linarith
    · push Not at h
      simp [h]
  | power k n ih => simp only [KExpr.check, Spec.Admissible, bind_ok_iff, checkIntGe_iff, ih, Int.lt_iff_add_one_le]; simp
  | polynomial s c n => simp only [KExpr.check, Spec.Admissible, bind_ok_iff, checkPos_iff, checkNonneg_iff, checkIntGe_iff, Int.lt_iff_add_one_le]; norm_num
  | _ => simp_all only [KExpr.check, Spec.Admissible, bind_ok_iff, checkPos_iff, checkNonneg_iff, checkIntGe_iff]

/-- The locally periodic kernel is the product documented, and accepted, positive semi-definite and symmetric in that product's range. -/
theorem C08_locally_periodic (plen pscale period slen sscale : ℝ) :
    (∀ x y : Vec d, (locallyPeriodic plen pscale period slen sscale : KExpr d).sem.compute x y
      = (pscale * Real.exp (-2 * Real.sin (Real.pi * nrm x y / period) ^ 2 / plen ^ 2)) * (sscale * Real.exp (-sqDist x y / (2 * slen ^ 2)))) ∧
    ((locallyPeriodic plen pscale period slen sscale : KExpr d).check = .ok () ↔ (0 < plen ∧ 0 < pscale) ∧ 0 < slen ∧ 0 < sscale) := by
  refine ⟨fun x y => ?_, ?_⟩
  · simp only [locallyPeriodic, KExpr.sem, mulSem, periodicSem, squaredExponentialSem]
    simp
  · rw [C08_check_iff]; rfl

/-! ### Symmetry, for every kernel expression -/

/-- The methods of a kernel respect the exchange of arguments. -/
structure SymOk (k : KSem d) : Prop where
  compute : ∀ x y, k.compute x y = k.compute y x
  grad : ∀ x y, k.gradX x y = k.gradY y x
  div : ∀ x y, k.div x y = k.div y x

/-- No Stein kernel inside a Stein kernel (its divergence would need equality of mixed derivatives). -/
def KExpr.NoStein : KExpr d → Prop
  | .stein _ _ => False
  | .power k _ => k.NoStein
  | .add a b => a.NoStein ∧ b.NoStein
  | .mul a b => a.NoStein ∧ b.NoStein
  | _ => True

theorem steinCompute_comm {k : KSem d} (h : SymOk k) (score : Vec d → Vec d) (x y : Vec d) :
    steinCompute k score x y = steinCompute k score y x := by
  simp only [steinCompute, h.div x y, h.grad x y, h.grad y x, h.compute x y, vdot_comm (score x) (score y)]
  ring

theorem ofCompute_grad_comm {k : Vec d → Vec d → ℝ} (h : ∀ x y, k x y = k y x) (x y : Vec d) :
    (KSem.ofCompute k).gradX x y = (KSem.ofCompute k).gradY y x := by
  simp only [KSem.ofCompute]
  congr 1
  funext z
  exact h z y

theorem symOk_radial {k : Vec d → Vec d → ℝ} {φ : ℝ → ℝ} (hk : ∀ x y, k x y = φ (sqDist x y))
    (hφ : ∀ t, 0 < t → ContDiffAt ℝ 2 φ t) : SymOk (KSem.ofCompute k) := by
  have hc : ∀ x y, k x y = k y x := fun x y => by rw [hk, hk, sqDist_comm]
  refine ⟨hc, ofCompute_grad_comm hc, fun x y => ?_⟩
  by_cases h : x = y
  · rw [h]
  · -- both divergences have the same closed form
    have key : ∀ x y : Vec d, x ≠ y → (KSem.ofCompute k).div x y
        = d * (-(2 * deriv φ (sqDist x y))) + 2 * sqDist x y * (-(2 * deriv (deriv φ) (sqDist x y))) := by
      intro x y h
      have hd1 : ∀ t, 0 < t → HasDerivAt φ (deriv φ t) t := fun t ht =>
        ((hφ t ht).differentiableAt (by norm_num)).hasDerivAt
      have hd2 : HasDerivAt (deriv φ) (deriv (deriv φ) (sqDist x y)) (sqDist x y) := by
        have h2 : ContDiffAt ℝ 1 (fderiv ℝ φ) (sqDist x y) := (hφ _ (sqDist_pos h)).fderiv_right (by norm_num)
        exact ((h2.differentiableAt (by norm_num)).clm_apply (differentiableAt_const 1)).hasDerivAt
      have hright : ∀ z : Vec d, z ≠ y → ∀ i, (KSem.ofCompute k).gradY z y i = -(2 * deriv φ (sqDist z y)) * (z i - y i) := by
        intro z hz i
        have h1 := hd1 _ (sqDist_pos hz)
        rw [sqDist_comm] at h1
        have h2 : IsGrad (fun y' => k z y') (fun i => -(2 * deriv φ (sqDist z y)) * (z i - y i)) y := by
          refine (isGrad_radial z h1).congr (fun w => by rw [hk, sqDist_comm]; rfl) (fun i => ?_)
          rw [sqDist_comm z y]
          ring
        exact congrFun ((isGrad_fderiv h2.differentiableAt).unique h2) i
      have h3 := isDiv_radial' (y := y) ((hd2.const_mul 2).fun_neg)
      have h4 := isDiv_ofCompute (ofCompute_radial hk hφ h).2
      obtain ⟨G, hG, hv⟩ := h3
      obtain ⟨G', hG', hv'⟩ := h4
      have : G' = G := by
        funext i
        refine (hG' i).unique (IsGrad.congr_nhds (hG i) ?_)
        filter_upwards [isOpen_ne.mem_nhds h] with z hz
        exact hright z hz i
      rw [hv', this, ← hv]
      ring
    rw [key x y h, key y x (Ne.symm h), sqDist_comm]

/-- The Matérn kernel as a function of the squared distance. -/
noncomputable def maternRadial (l s : ℝ) (p : ℕ) (t : ℝ) : ℝ :=
  (s ^ 2 * Real.exp (-(Real.sqrt (2 * p + 1) * Real.sqrt t / l)) * p.factorial / (2 * p).factorial)
    * (if 0 < p then ∑ i ∈ Finset.range (p + 1), ((p + i).factorial : ℝ) / (i.factorial * (p - i).factorial)
      * (2 * (Real.sqrt (2 * p + 1) * Real.sqrt t / l)) ^ (p - i) else 1)

theorem symOk_of_noStein (K : KExpr d) (h : K.NoStein) : SymOk K.sem := by
  have hneg : ∀ {f : Vec d → Vec d → Vec d} (x y : Vec d), (∀ i, f y x i = -f x y i) → -f x y = f y x :=
    fun x y hf => funext fun i => (hf i).symm
  induction K with
  | const c => exact ⟨fun _ _ => rfl, fun _ _ => rfl, fun _ _ => rfl⟩
  | linear s c => exact ⟨fun x y => by simp [KExpr.sem, linearSem, vdot_comm x y], fun _ _ => rfl, fun _ _ => rfl⟩
  | polynomial s c n =>
    exact ⟨fun x y => by simp [KExpr.sem, polynomialSem, vdot_comm x y],
      fun x y => by simp [KExpr.sem, polynomialSem, vdot_comm x y],
      fun x y => by simp [KExpr.sem, polynomialSem, vdot_comm x y]⟩
  | exponential l s =>
    refine ⟨fun x y => by simp [KExpr.sem, exponentialSem, nrm_comm x y], fun x y => ?_, fun x y => ?_⟩
    · refine hneg (f := (exponentialSem l s : KSem d).gradY) x y fun i => ?_
      simp only [exponentialSem, nrm_comm y x]
      ring
    · simp only [KExpr.sem, exponentialSem, nrm_comm y x, vdot, Pi.sub_apply]
      congr 2
      exact Finset.sum_congr rfl fun i _ => by ring
  | laplacian l s =>
    refine ⟨fun x y => by simp [KExpr.sem, laplacianSem, nrm1_comm x y], fun x y => ?_,
      fun x y => by simp [KExpr.sem, laplacianSem, nrm1_comm x y]⟩
    refine hneg (f := (laplacianSem l s : KSem d).gradY) x y fun i => ?_
    simp only [laplacianSem, nrm1_comm y x]
    rw [show y i - x i = -(x i - y i) by ring, Real.sign_neg]
    ring
  | squaredExponential l s =>
    refine ⟨fun x y => by simp [KExpr.sem, squaredExponentialSem, sqDist_comm x y], fun x y => ?_,
      fun x y => by simp [KExpr.sem, squaredExponentialSem, sqDist_comm x y]⟩
    refine hneg (f := (squaredExponentialSem l s : KSem d).gradY) x y fun i => ?_
    simp only [squaredExponentialSem, sqDist_comm y x]
    ring
  | pcimq l s =>
    refine ⟨fun x y => by simp [KExpr.sem, pcimqSem, sqDist_comm x y], fun x y => ?_,
      fun x y => by simp [KExpr.sem, pcimqSem, sqDist_comm x y]⟩
    refine hneg (f := (pcimqSem l s : KSem d).gradY) x y fun i => ?_
    simp only [pcimqSem, sqDist_comm y x]
    ring
  | rationalQuadratic l s a =>
    refine ⟨fun x y => by simp [KExpr.sem, rationalQuadraticSem, sqDist_comm x y], fun x y => ?_,
      fun x y => by simp [KExpr.sem, rationalQuadraticSem, sqDist_comm x y]⟩
    refine hneg (f := (rationalQuadraticSem l s a : KSem d).gradY) x y fun i => ?_
    simp only [rationalQuadraticSem, sqDist_comm y x]
    ring
  | matern l s n =>
    exact symOk_radial (k := maternCompute l s n.toInt.toNat) (φ := fun t => maternRadial l s n.toInt.toNat t)
      (fun x y => by simp only [maternCompute, nrm_eq, maternRadial])
      (fun t ht => matern_contDiffAt l s n.toInt.toNat t ht)
  | periodic l s p =>
    refine ⟨fun x y => by simp [KExpr.sem, periodicSem, nrm_comm x y], fun x y => ?_, fun x y => ?_⟩
    · refine hneg (f := (periodicSem l s p : KSem d).gradY) x y fun i => ?_
      simp only [periodicSem, nrm_comm y x]
      ring
    · simp only [KExpr.sem, periodicSem, nrm_comm y x, vdot, Pi.sub_apply]
      congr 2
      exact Finset.sum_congr rfl fun i _ => by ring
  | poisson r s =>
    refine ⟨fun x y => by simp [KExpr.sem, poissonSem, nrm_comm x y], fun x y => ?_,
      fun x y => by simp [KExpr.sem, poissonSem, nrm_comm x y]⟩
    refine hneg (f := (poissonSem r s : KSem d).gradY) x y fun i => ?_
    simp only [poissonSem]
    rw [show y i - x i = -(x i - y i) by ring, Real.sin_neg, Real.cos_neg]
    ring
  | power k n ih =>
    obtain ⟨h1, h2, h3⟩ := ih h
    exact ⟨fun x y => by simp only [KExpr.sem, powerSem, h1 x y], fun x y => by simp only [KExpr.sem, powerSem, h1 x y, h2 x y],
      fun x y => by simp only [KExpr.sem, powerSem, h1 x y, h3 x y, h2 x y, h2 y x, vdot_comm (k.sem.gradY y x)]⟩
  | add a b iha ihb =>
    obtain ⟨h1, h2, h3⟩ := iha h.1
    obtain ⟨g1, g2, g3⟩ := ihb h.2
    exact ⟨fun x y => by simp only [KExpr.sem, addSem, h1 x y, g1 x y],
      fun x y => by simp only [KExpr.sem, addSem, h2 x y, g2 x y],
      fun x y => by simp only [KExpr.sem, addSem, h3 x y, g3 x y]⟩
  | mul a b iha ihb =>
    obtain ⟨h1, h2, h3⟩ := iha h.1
    obtain ⟨g1, g2, g3⟩ := ihb h.2
    refine ⟨fun x y => by simp only [KExpr.sem, mulSem, h1 x y, g1 x y],
      fun x y => by simp only [KExpr.sem, mulSem, h1 x y, h2 x y, g1 x y, g2 x y], fun x y => ?_⟩
    simp only [KExpr.sem, mulSem, h1 x y, h2 x y, g1 x y, g2 x y, h3 x y, g3 x y, h2 y x, g2 y x]
    split
    · rw [vdot_comm]
    · rw [vdot_comm (a.sem.gradY y x), vdot_comm (a.sem.gradY x y)]
      ring
  | stein k score _ => exact h.elim

/-- A Stein kernel must not contain another one. -/
def KExpr.SymDomain : KExpr d → Prop
  | .stein k _ => k.NoStein
  | .power k _ => k.SymDomain
  | .add a b => a.SymDomain ∧ b.SymDomain
  | .mul a b => a.SymDomain ∧ b.SymDomain
  | _ => True

/-- **C08, symmetry.** Every kernel expression is symmetric in its arguments, at all points, with no condition on its
parameters. -/
theorem C08_symmetric (K : KExpr d) (h : K.SymDomain) (x y : Vec d) : K.sem.compute x y = K.sem.compute y x := by
  induction K with
  | power k n ih => simp only [KExpr.sem, powerSem, ih h]
  | add a b iha ihb => simp only [KExpr.sem, addSem, iha h.1, ihb h.2]
  | mul a b iha ihb => simp only [KExpr.sem, mulSem, iha h.1, ihb h.2]
  | stein k score _ => exact steinCompute_comm (symOk_of_noStein k h) score x y
  | const c => exact (symOk_of_noStein _ (by trivial)).compute x y
  | _ => exact (symOk_of_noStein _ (by simp only [KExpr.NoStein])).compute x y

example := C08_symmetric (.mul (.periodic 1 2 0) (.stein (.power (.matern 1 1 (.int 3)) (.int (-4))) id) : KExpr 2) ⟨trivial, trivial⟩ ![1, 2] ![3, 5]

/-- Exchanging the arguments exchanges the gradients and keeps the divergence. -/
theorem C08_symmetric_gradients (K : KExpr d) (h : K.NoStein) (x y : Vec d) :
    K.sem.gradX x y = K.sem.gradY y x ∧ K.sem.div x y = K.sem.div y x :=
  ⟨(symOk_of_noStein K h).grad x y, (symOk_of_noStein K h).div x y⟩

example : (KExpr.mul (.periodic 1 2 0) (.stein (.power (.matern 1 1 (.int 3)) (.int (-4))) id) : KExpr 2).SymDomain :=
  ⟨trivial, trivial⟩

/-! ### Where positive semi-definiteness fails -/

/-- In a positive semi-definite kernel, points at maximal similarity to a common point are indistinguishable. -/
theorem isPSD_rigid {X : Type*} {k : X → X → ℝ} (hk : IsPSD k) {o a b : X} {r : ℝ} (hoo : k o o = r) (haa : k a a = r)
    (hbb : k b b = r) (hoa : k o a = r) (hob : k o b = r) : k a b = r := by
  obtain ⟨H, _, _, φ, hφ⟩ := hk.exists_feature
  have key : ∀ c, k o c = r → k c c = r → φ o = φ c := by
    intro c h1 h2
    rw [← sub_eq_zero, ← norm_eq_zero, ← sq_eq_zero_iff, norm_sub_sq_real, ← real_inner_self_eq_norm_sq,
      ← real_inner_self_eq_norm_sq, ← hφ, ← hφ, ← hφ, hoo, h1, h2]
    ring
  rw [hφ, ← key a hoa haa, ← key b hob hbb, ← hφ, hoo]

theorem nrm_self (x : Vec d) : nrm x x = 0 := by simp [nrm]

theorem nrm_zero_single (p : ℝ) (i : Fin d) : nrm 0 (Pi.single i p : Vec d) = |p| := by
  rw [nrm_eq, ← Real.sqrt_sq_eq_abs]
  congr 1
  simp [sqDist, Pi.single_apply, pow_two]

theorem nrm_single_single (p : ℝ) {i j : Fin d} (h : i ≠ j) : nrm (Pi.single i p : Vec d) (Pi.single j p) = Real.sqrt 2 * |p| := by
  rw [nrm_eq, ← Real.sqrt_sq_eq_abs, ← Real.sqrt_mul (by norm_num)]
  congr 1
  have : ∀ m : Fin d, ((Pi.single i p : Vec d) m - (Pi.single j p : Vec d) m) * ((Pi.single i p : Vec d) m - (Pi.single j p : Vec d) m)
      = (if m = i then p ^ 2 else 0) + (if m = j then p ^ 2 else 0) := by
    intro m
    by_cases h1 : m = i
    · subst h1
      simp [h]
      ring
    · by_cases h2 : m = j
      · subst h2
        simp [h1]
        ring
      · simp [h1, h2]
  simp only [sqDist, this, Finset.sum_add_distrib, Finset.sum_ite_eq', Finset.mem_univ, if_true]
  ring

theorem sin_sqrt_two_pi : Real.sin (Real.sqrt 2 * Real.pi) ≠ 0 := by
  intro h0
  obtain ⟨n, hn⟩ := Real.sin_eq_zero_iff.1 h0
  have : (n : ℝ) = Real.sqrt 2 := mul_right_cancel₀ Real.pi_ne_zero hn
  exact irrational_sqrt_two ⟨n, by simpa using this⟩

/-- In two or more dimensions the periodic kernel is **not** positive semi-definite, for any length scale, output scale
and period. -/
theorem C08_periodic_not_psd (l s p : ℝ) (hc : (KExpr.periodic l s p : KExpr d).check = .ok ()) (hp : p ≠ 0) (h2 : 2 ≤ d) :
    ¬ IsPSD (KExpr.periodic l s p : KExpr d).sem.compute := by
  intro hk
  have hl := checkPos_ok (bind_ok hc).1
  have hs := checkPos_ok (bind_ok hc).2
  let i : Fin d := ⟨0, by omega⟩
  let j : Fin d := ⟨1, by omega⟩
  have hij : i ≠ j := by simp [i, j]
  have hself : ∀ x : Vec d, (KExpr.periodic l s p : KExpr d).sem.compute x x = s := fun x => by
    simp [KExpr.sem, periodicSem, nrm_self]
  have hsq : ∀ t : ℝ, Real.sin (Real.pi * (t * |p|) / p) ^ 2 = Real.sin (t * Real.pi) ^ 2 := by
    intro t
    rcases abs_choice p with h | h
    · rw [h, show Real.pi * (t * p) / p = t * Real.pi by field_simp]
    · rw [h, show Real.pi * (t * -p) / p = -(t * Real.pi) by field_simp, Real.sin_neg, neg_sq]
  have hone : ∀ m : Fin d, (KExpr.periodic l s p : KExpr d).sem.compute 0 (Pi.single m p) = s := fun m => by
    have := hsq 1
    rw [one_mul, one_mul, Real.sin_pi] at this
    simp only [KExpr.sem, periodicSem, nrm_zero_single, this]
    simp
  have := isPSD_rigid hk (hself 0) (hself _) (hself _) (hone i) (hone j)
  simp only [KExpr.sem, periodicSem, nrm_single_single p hij, hsq] at this
  have h1 : Real.exp (-2 * Real.sin (Real.sqrt 2 * Real.pi) ^ 2 / l ^ 2) = 1 := by
    have : s * Real.exp (-2 * Real.sin (Real.sqrt 2 * Real.pi) ^ 2 / l ^ 2) = s * 1 := by rw [this, mul_one]
    exact mul_left_cancel₀ hs.ne' this
  rw [Real.exp_eq_one_iff, div_eq_zero_iff] at h1
  rcases h1 with h1 | h1
  · exact sin_sqrt_two_pi (by simpa using h1)
  · exact absurd h1 (by positivity)

example := C08_periodic_not_psd (d := 2) 1 1 1 (by norm_num [KExpr.check, checkPos, checkNonneg, checkIntGe, bind, Except.bind]) one_ne_zero le_rfl

/-- Likewise for the Poisson kernel (documented for one dimension, not rejected in more). -/
theorem C08_poisson_not_psd (r s : ℝ) (hc : (KExpr.poisson r s : KExpr d).check = .ok ()) (h2 : 2 ≤ d) :
    ¬ IsPSD (KExpr.poisson r s : KExpr d).sem.compute := by
  intro hk
  obtain ⟨hr0, hr1⟩ := poissonCheck_ok (bind_ok hc).1
  have hs := checkPos_ok (bind_ok hc).2
  let i : Fin d := ⟨0, by omega⟩
  let j : Fin d := ⟨1, by omega⟩
  have hij : i ≠ j := by simp [i, j]
  have hself : ∀ x : Vec d, (KExpr.poisson r s : KExpr d).sem.compute x x = s / (1 - 2 * r * 1 + r ^ 2) := fun x => by
    simp [KExpr.sem, poissonSem, nrm_self]
  have hone : ∀ m : Fin d, (KExpr.poisson r s : KExpr d).sem.compute 0 (Pi.single m (2 * Real.pi))
      = s / (1 - 2 * r * 1 + r ^ 2) := fun m => by
    simp only [KExpr.sem, poissonSem, nrm_zero_single, Real.cos_abs, Real.cos_two_pi]
  have := isPSD_rigid hk (hself 0) (hself _) (hself _) (hone i) (hone j)
  simp only [KExpr.sem, poissonSem, nrm_single_single (2 * Real.pi) hij] at this
  rw [abs_of_pos Real.two_pi_pos, show Real.sqrt 2 * (2 * Real.pi) = 2 * (Real.sqrt 2 * Real.pi) by ring,
    Real.cos_two_mul, Real.cos_sq'] at this
  have hd1 := poisson_den_pos hr0 hr1 (2 * (Real.sqrt 2 * Real.pi))
  rw [Real.cos_two_mul, Real.cos_sq'] at hd1
  have hd2 : 0 < 1 - 2 * r * 1 + r ^ 2 := by nlinarith [sq_pos_of_pos (sub_pos.2 hr1)]
  rw [div_eq_div_iff hd1.ne' hd2.ne'] at this
  have h3 := mul_left_cancel₀ hs.ne' this
  have h4 : r * Real.sin (Real.sqrt 2 * Real.pi) ^ 2 = 0 := by linarith
  rcases mul_eq_zero.1 h4 with h4 | h4
  · exact hr0.ne' h4
  · exact sin_sqrt_two_pi (by simpa using h4)

example : (KExpr.periodic 1 1 1 : KExpr 2).check = .ok () ∧ (KExpr.poisson (1 / 2) 1 : KExpr 2).check = .ok () := by
  constructor <;> norm_num [KExpr.check, checkPos, bind, Except.bind]

/-! ### The library rejects what would break positive semi-definiteness -/

theorem checkNonneg_neg {v : ℝ} (h : v < 0) : checkNonneg v = .error .valueError := if_pos h

/-- Addition and multiplication: negative numbers and non-kernels are rejected, everything else gives the pointwise sum
and product and passes all checks when the operands do. -/
theorem C08_add_operator (K : KExpr d) (o : PyObj d) :
    match o with
    | .num v => (v.toReal < 0 → K.addOp o = .error .valueError) ∧ (0 ≤ v.toReal → ∃ K', K.addOp o = .ok K' ∧
        (K.check = .ok () → K'.check = .ok ()) ∧ ∀ x y, K'.sem.compute x y = K.sem.compute x y + v.toReal)
    | .kernel k => ∃ K', K.addOp o = .ok K' ∧ (K.check = .ok () → k.check = .ok () → K'.check = .ok ()) ∧
        ∀ x y, K'.sem.compute x y = K.sem.compute x y + k.sem.compute x y
    | .other => K.addOp o = .error .valueError := by
  cases o with
  | num v =>
    refine ⟨fun h => ?_, fun h => ⟨.add K (.const v.toReal), ?_, fun hk => ?_, fun _ _ => rfl⟩⟩
    · simp only [KExpr.addOp, checkNonneg_neg h]
    · simp only [KExpr.addOp, (checkNonneg_iff _).2 h]
    · simp [KExpr.check, hk, (checkNonneg_iff _).2 h, bind, Except.bind]
  | kernel k => exact ⟨.add K k, rfl, fun h1 h2 => by simp [KExpr.check, h1, h2, bind, Except.bind], fun _ _ => rfl⟩
  | other => rfl

theorem mul_compute (a b : KExpr d) (x y : Vec d) :
    (KExpr.mul a b).sem.compute x y = a.sem.compute x y * b.sem.compute x y := by
  by_cases h : a = b
  · simp [KExpr.sem, mulSem, h, pow_two]
  · simp [KExpr.sem, mulSem, h]

theorem C08_mul_operator (K : KExpr d) (o : PyObj d) :
    match o with
    | .num v => (v.toReal < 0 → K.mulOp o = .error .valueError) ∧ (0 ≤ v.toReal → ∃ K', K.mulOp o = .ok K' ∧
        (K.check = .ok () → K'.check = .ok ()) ∧ ∀ x y, K'.sem.compute x y = K.sem.compute x y * v.toReal)
    | .kernel k => ∃ K', K.mulOp o = .ok K' ∧ (K.check = .ok () → k.check = .ok () → K'.check = .ok ()) ∧
        ∀ x y, K'.sem.compute x y = K.sem.compute x y * k.sem.compute x y
    | .other => K.mulOp o = .error .valueError := by
  cases o with
  | num v =>
    refine ⟨fun h => ?_, fun h => ⟨.mul K (.const v.toReal), ?_, fun hk => ?_, fun x y => mul_compute _ _ x y⟩⟩
    · simp only [KExpr.mulOp, checkNonneg_neg h]
    · simp only [KExpr.mulOp, (checkNonneg_iff _).2 h]
    · simp [KExpr.check, hk, (checkNonneg_iff _).2 h, bind, Except.bind]
  | kernel k =>
    exact ⟨.mul K k, rfl, fun h1 h2 => by simp [KExpr.check, h1, h2, bind, Except.bind], fun x y => mul_compute _ _ x y⟩
  | other => rfl

/-- Powers: exactly the integers from one on are accepted, and give the pointwise power. -/
theorem C08_pow_operator (K : KExpr d) (o : PyObj d) :
    match o with
    | .num (.int n) => (n < 1 → K.powOp o = .error .valueError) ∧ (1 ≤ n → ∃ K', K.powOp o = .ok K' ∧
        (K.check = .ok () → K'.check = .ok ()) ∧ ∀ x y, K'.sem.compute x y = K.sem.compute x y ^ n.toNat)
    | _ => K.powOp o = .error .valueError := by
  cases o with
  | num v =>
    cases v with
    | int n =>
      refine ⟨fun h => ?_, fun h => ⟨.power K (.int n), ?_, fun hk => ?_, fun x y => ?_⟩⟩
      · simp only [KExpr.powOp, checkIntGe, if_pos h]
      · simp only [KExpr.powOp, checkIntGe, if_neg (not_lt.2 h)]
      · simp only [KExpr.check, hk, checkIntGe, if_neg (not_lt.2 h), bind, Except.bind]
      · exact zpow_eq_pow (by show (0 : ℤ) ≤ n; omega) _
    | float r => rfl
  | kernel k => rfl
  | other => rfl

/-- Whatever is built with the operators from constructible kernels is constructible, hence covered by `C08_psd`; direct
construction with a negative constant, or a power below one or not an integer, is an error. -/
theorem C08_rejections (K : KExpr d) (c : ℝ) (n : PyNum) :
    (c < 0 → (KExpr.const c : KExpr d).check = .error .valueError) ∧
      ((∀ z, n = .int z → z < 1) → K.check = .ok () → (KExpr.power K n).check = .error .valueError) := by
  refine ⟨fun h => checkNonneg_neg h, fun h hk => ?_⟩
  cases n with
  | int z => simp [KExpr.check, hk, checkIntGe, h z rfl, bind, Except.bind]
  | float r => simp [KExpr.check, hk, checkIntGe, bind, Except.bind]

end Coreax
