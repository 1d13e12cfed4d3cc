import Verif.Lemmas.SteinStrict
import Verif.Props.RateEndToEnd
import Verif.Props.MapReduce
import Mathlib.Analysis.Convex.StdSimplex

/-!
# C90: Stein discrepancies are never zero
-/

set_option linter.unusedSectionVars false

namespace Coreax

open Spec SteinStrict

section
variable {d : ℕ}

/-- The kernels that are functions of the distance and twice differentiable. -/
def KExpr.Radial : KExpr d → Prop
  | .squaredExponential _ _ => True
  | .pcimq _ _ => True
  | .rationalQuadratic _ _ _ => True
  | _ => False

/-- Base kernels whose Stein kernels tell samples apart: the smooth functions of the distance, their powers, sums with anything. -/
def KExpr.SteinSeparating : KExpr d → Prop
  | .squaredExponential _ _ => True
  | .pcimq _ _ => True
  | .rationalQuadratic _ _ _ => True
  | .power k _ => k.Radial
  | .add a b => a.SteinSeparating ∨ b.SteinSeparating
  | _ => False

theorem KExpr.Smooth.noStein {K : KExpr d} (h : K.Smooth) : K.NoStein := by
  induction K with
  | power k n ih => exact ih h.1
  | add a b iha ihb => exact ⟨iha h.1, ihb h.2⟩
  | mul a b iha ihb => exact ⟨iha h.1, ihb h.2⟩
  | stein k s => exact h.elim
  | _ => trivial

/-- The Stein kernel depends on the values of the base kernel only. -/
theorem SteinStrict.congr {K K' : KExpr d} (hc : K.check = .ok ()) (hs : K.Smooth) (hc' : K'.check = .ok ()) (hs' : K'.Smooth)
    (h : ∀ x y, K.sem.compute x y = K'.sem.compute x y) (score : Vec d → Vec d) (x y : Vec d) :
    (KExpr.stein K score).sem.compute x y = (KExpr.stein K' score).sem.compute x y := by
  have h1 := C35_langevin K score x y hc hs.noStein (hs.smoothAt x y) (hs.divSmoothAt x y)
  have h2 := C35_langevin K' score x y hc' hs'.noStein (hs'.smoothAt x y) (hs'.divSmoothAt x y)
  have e : K.sem.compute = K'.sem.compute := by funext a b; exact h a b
  rw [e] at h1
  exact C35_langevin_unique _ _ _ _ _ _ h1 h2

theorem SteinStrict.check_squaredExponential {l s : ℝ} (hl : 0 < l) (hs : 0 < s) : (KExpr.squaredExponential l s : KExpr d).check = .ok () := by
  simp only [KExpr.check, checkPos, not_le.2 hl, not_le.2 hs, if_false]
  rfl

theorem SteinStrict.check_rationalQuadratic {l s a : ℝ} (hl : 0 < l) (hs : 0 < s) (ha : 0 < a) : (KExpr.rationalQuadratic l s a : KExpr d).check = .ok () := by
  simp only [KExpr.check, checkPos, checkNonneg, not_le.2 hl, not_le.2 hs, not_lt.2 ha.le, if_false]
  rfl

theorem SteinStrict.squaredExponential (l s : ℝ) (hl : 0 < l) (hs : 0 < s) (hd : 0 < d) (score : Vec d → Vec d) :
    IsStrict (KExpr.stein (.squaredExponential l s) score : KExpr d).sem.compute :=
  ((gauss_strict (t := 1 / (2 * l ^ 2)) (by positivity) hd score).smul hs).congr fun x y => stein_squaredExponential l s hl.ne' score x y

theorem SteinStrict.rationalQuadratic (l s a : ℝ) (hl : 0 < l) (hs : 0 < s) (ha : 0 < a) (hd : 0 < d) (score : Vec d → Vec d) :
    IsStrict (KExpr.stein (.rationalQuadratic l s a) score : KExpr d).sem.compute := by
  have hpsd := C35_psd (.rationalQuadratic l s a : KExpr d) score (check_rationalQuadratic hl hs ha) ha.ne' ha.ne'
  have h1 : IsPSD (invValue (1 / (2 * a * l ^ 2)) a score : Vec d → Vec d → ℝ) :=
    (hpsd.smul (a := s⁻¹) (by positivity)).congr fun x y => by
      show _ = s⁻¹ * steinCompute (rationalQuadraticSem l s a) score x y
      rw [stein_rationalQuadratic l s a hl.ne' ha.ne', inv_mul_cancel_left₀ hs.ne']
  exact ((inv_strict (by positivity) ha hd score h1).smul hs).congr fun x y => stein_rationalQuadratic l s a hl.ne' ha.ne' score x y

theorem SteinStrict.pcimq (l s : ℝ) (hl : 0 < l) (hs : 0 < s) (hd : 0 < d) (score : Vec d → Vec d) :
    IsStrict (KExpr.stein (.pcimq l s) score : KExpr d).sem.compute := by
  have hc : (KExpr.pcimq l s : KExpr d).check = .ok () := check_squaredExponential (d := d) hl hs
  have hpsd := C35_psd (.pcimq l s : KExpr d) score hc trivial trivial
  have h1 : IsPSD (invValue (1 / (2 * l ^ 2)) (1 / 2) score : Vec d → Vec d → ℝ) :=
    (hpsd.smul (a := s⁻¹) (by positivity)).congr fun x y => by
      show _ = s⁻¹ * steinCompute (pcimqSem l s) score x y
      rw [stein_pcimq l s hl.ne' hs.ne', inv_mul_cancel_left₀ hs.ne']
  exact ((inv_strict (by positivity) (by norm_num) hd score h1).smul hs).congr fun x y => stein_pcimq l s hl.ne' hs.ne' score x y

/-- **C90.** The Stein kernel of a base kernel that is a smooth function of the distance, a power of one or a sum with one is strictly positive definite, whatever the score function is and in every dimension. -/
theorem C90_strict (K : KExpr d) (hc : K.check = .ok ()) (hp : K.PsdDomain) (hs : K.Smooth) (hK : K.SteinSeparating) (hd : 0 < d) (score : Vec d → Vec d) :
    IsStrict (KExpr.stein K score).sem.compute := by
  induction K with
  | squaredExponential l s => exact SteinStrict.squaredExponential l s (checkPos_ok (bind_ok hc).1) (checkPos_ok (bind_ok hc).2) hd score
  | pcimq l s => exact SteinStrict.pcimq l s (checkPos_ok (bind_ok hc).1) (checkPos_ok (bind_ok hc).2) hd score
  | rationalQuadratic l s a =>
    exact SteinStrict.rationalQuadratic l s a (checkPos_ok (bind_ok hc).1) (checkPos_ok (bind_ok (bind_ok hc).2).1)
      (lt_of_le_of_ne (checkNonneg_ok (bind_ok (bind_ok hc).2).2) (Ne.symm hp)) hd score
  | power k n ih =>
    have hn := checkIntGe_ok (bind_ok hc).2
    obtain ⟨p, hn', hp0⟩ : ∃ p : ℕ, n.toInt = (p : ℤ) ∧ 0 < p := ⟨n.toInt.toNat, by omega, by omega⟩
    have hpr : (0 : ℝ) < p := by exact_mod_cast hp0
    have hck := (bind_ok hc).1
    cases k with
    | squaredExponential l s =>
      have hl := checkPos_ok (bind_ok hck).1
      have hs0 := checkPos_ok (bind_ok hck).2
      refine (SteinStrict.squaredExponential (l / Real.sqrt p) (s ^ p) (by positivity) (by positivity) hd score).congr
        fun x y => SteinStrict.congr hc hs (check_squaredExponential (by positivity) (by positivity)) trivial (fun x y => ?_) score x y
      simp only [KExpr.sem, powerSem, squaredExponentialSem, hn', zpow_natCast, mul_pow, ← Real.exp_nat_mul, div_pow, Real.sq_sqrt hpr.le]
      congr 2
      field_simp
    | pcimq l s =>
      have hl := checkPos_ok (bind_ok hck).1
      have hs0 := checkPos_ok (bind_ok hck).2
      refine (SteinStrict.rationalQuadratic (l * Real.sqrt (2 / p)) (s ^ p) (p / 2) (by positivity) (by positivity) (by positivity) hd score).congr
        fun x y => SteinStrict.congr hc hs (check_rationalQuadratic (by positivity) (by positivity) (by positivity)) (by show (p : ℝ) / 2 ≠ 0; positivity) (fun x y => ?_) score x y
      have hB : 0 ≤ 1 + sqDist x y / (2 * l ^ 2) := by have := sqDist_nonneg x y; positivity
      have e : 2 * ((p : ℝ) / 2) * (l * Real.sqrt (2 / p)) ^ 2 = 2 * l ^ 2 := by
        rw [mul_pow, Real.sq_sqrt (by positivity)]; field_simp
      simp only [KExpr.sem, powerSem, pcimqSem, rationalQuadraticSem, hn', zpow_natCast, e, div_pow]
      rw [Real.rpow_neg hB, Real.sqrt_eq_rpow, ← Real.rpow_natCast (_ ^ (1 / 2 : ℝ)), ← Real.rpow_mul hB, div_eq_mul_inv]
      congr 3
      ring
    | rationalQuadratic l s a =>
      have hl := checkPos_ok (bind_ok hck).1
      have hs0 := checkPos_ok (bind_ok (bind_ok hck).2).1
      have ha : 0 < a := lt_of_le_of_ne (checkNonneg_ok (bind_ok (bind_ok hck).2).2) (Ne.symm hp)
      refine (SteinStrict.rationalQuadratic (l / Real.sqrt p) (s ^ p) (p * a) (by positivity) (by positivity) (by positivity) hd score).congr
        fun x y => SteinStrict.congr hc hs (check_rationalQuadratic (by positivity) (by positivity) (by positivity)) (by show (p : ℝ) * a ≠ 0; positivity) (fun x y => ?_) score x y
      have hB : 0 ≤ 1 + sqDist x y / (2 * a * l ^ 2) := by have := sqDist_nonneg x y; positivity
      have e : 2 * ((p : ℝ) * a) * (l / Real.sqrt p) ^ 2 = 2 * a * l ^ 2 := by
        rw [div_pow, Real.sq_sqrt hpr.le]; field_simp
      simp only [KExpr.sem, powerSem, rationalQuadraticSem, hn', zpow_natCast, e, mul_pow]
      rw [← Real.rpow_natCast (_ ^ (-a)), ← Real.rpow_mul hB]
      congr 2
      ring
    | _ => exact hK.elim
  | add a b iha ihb =>
    have e : ∀ x y, (KExpr.stein (.add a b) score).sem.compute x y = (KExpr.stein a score).sem.compute x y + (KExpr.stein b score).sem.compute x y := by
      intro x y
      simp only [KExpr.sem, KSem.ofCompute, steinCompute, addSem, vdot, add_mul, Finset.sum_add_distrib]
      ring
    rcases hK with hK | hK
    · exact ((iha (bind_ok hc).1 hp.1 hs.1 hK).add (C35_psd b score (bind_ok hc).2 hp.2 hs.2)).congr e
    · exact ((ihb (bind_ok hc).2 hp.2 hs.2 hK).add (C35_psd a score (bind_ok hc).1 hp.1 hs.1)).congr fun x y => (e x y).trans (add_comm _ _)
  | _ => exact hK.elim

/-- An arbitrary score, a sum of a linear kernel and the square of a kernel. -/
example (score : Vec 2 → Vec 2) : IsStrict (KExpr.stein (.add (.linear 1 1) (.power (.pcimq 2 3) (.int 2))) score).sem.compute :=
  C90_strict _ (by norm_num [KExpr.check, checkPos, checkNonneg, checkIntGe, bind, Except.bind, PyNum.toInt]) (by simp [KExpr.PsdDomain])
    (by simp [KExpr.Smooth, PyNum.toInt]) (by simp [KExpr.SteinSeparating, KExpr.Radial]) (by norm_num) score

end

section
variable {X : Type}

theorem SteinStrict.avg_avg (k : X → X → ℝ) {m : ℕ} (y : Fin m → X) (v : Fin m → ℝ) [DecidableEq X] (S : Finset X) (hS : ∀ i, y i ∈ S) :
    (avg v fun i => avg v fun j => k (y i) (y j)) = ∑ a ∈ S, ∑ b ∈ S, massAt y v a / (∑ i, v i) * (massAt y v b / ∑ i, v i) * k a b := by
  refine (Strict.avg_eq y v S hS fun a => avg v fun j => k a (y j)).trans ?_
  refine Finset.sum_congr rfl fun a _ => ?_
  rw [Strict.avg_eq y v S hS fun b => k a b, Finset.mul_sum]
  exact Finset.sum_congr rfl fun b _ => by ring

theorem SteinStrict.sum_mass {m : ℕ} (y : Fin m → X) (v : Fin m → ℝ) (hv : ∑ i, v i ≠ 0) [DecidableEq X] (S : Finset X) (hS : ∀ i, y i ∈ S) :
    ∑ a ∈ S, massAt y v a / (∑ i, v i) = 1 := by
  have := Strict.avg_eq y v S hS fun _ => 1
  simp only [mul_one] at this
  rw [← this, avg]
  simp only [mul_one]
  exact div_self hv

variable [Zero X]

/-- **C90.** For a strictly positive definite Stein kernel the computed discrepancy of every weighted sample with non-zero total weight is positive. -/
theorem C90_ksd_pos (big : ℝ) (kp : X → X → ℝ) (hk : IsStrict kp) {m : ℕ} (hm : 0 < m) (y : Data m X ℝ) (hy : ∑ i, y.weights i ≠ 0) (bs : PyTree (Option ℤ)) (hbs : ValidBlock bs) :
    ∃ r, ksdCompute big kp y bs none none = .ok r ∧ 0 < r := by
  classical
  obtain ⟨h1, h2, -⟩ := C35_ksd_norm big kp hk.1 hm y hy bs hbs
  refine ⟨_, h1, Real.sqrt_pos.2 (lt_of_le_of_ne h2 fun h => ?_)⟩
  have hS : ∀ i, y.data i ∈ Finset.univ.image y.data := fun i => Finset.mem_image_of_mem _ (Finset.mem_univ i)
  rw [avg_avg kp y.data y.weights _ hS, ← Finset.sum_coe_sort (Finset.univ.image y.data)] at h
  have h3 := hk.finite (fun s : Finset.univ.image y.data => (s : X)) Subtype.val_injective (fun s => massAt y.data y.weights s / ∑ i, y.weights i) (by
    refine Eq.trans (Finset.sum_congr rfl fun a _ => ?_) h.symm
    exact Finset.sum_coe_sort (Finset.univ.image y.data) fun b => massAt y.data y.weights a / (∑ i, y.weights i) * (massAt y.data y.weights b / ∑ i, y.weights i) * kp a b)
  have h4 := sum_mass y.data y.weights hy _ hS
  rw [Finset.sum_eq_zero fun a ha => h3 ⟨a, ha⟩] at h4
  norm_num at h4

/-- A sample with a negative weight. -/
example (big : ℝ) (score : Vec 3 → Vec 3) (x : Fin 2 → Vec 3) : ∃ r, ksdCompute big (KExpr.stein (.squaredExponential 1 1) score).sem.compute ⟨x, ![3, -1]⟩ (.leaf none) none none = .ok r ∧ 0 < r :=
  C90_ksd_pos big _ (C90_strict _ (check_squaredExponential one_pos one_pos) trivial trivial trivial (by norm_num) score) (by norm_num) ⟨x, ![3, -1]⟩
    (by rw [Fin.sum_univ_two]; norm_num) _ (Or.inl rfl)

/-- **C90.** The Laplace correction, a sum of clipped values, keeps the discrepancy positive and does not lower it. -/
theorem C90_laplace (big : ℝ) (kp : X → X → ℝ) (hk : IsStrict kp) {m : ℕ} (hm : 0 < m) (y : Data m X ℝ) (hy : ∑ i, y.weights i ≠ 0) (bs : PyTree (Option ℤ)) (hbs : ValidBlock bs)
    (hess : Fin m → ℝ) :
    ∃ r r', ksdCompute big kp y bs none none = .ok r ∧ ksdCompute big kp y bs none (some fun i => max (hess i) 0) = .ok r' ∧ 0 < r ∧ r ≤ r' ∧
      (r' = r ↔ ∀ i, hess i ≤ 0) := by
  obtain ⟨r, h1, h2⟩ := C90_ksd_pos big kp hk hm y hy bs hbs
  obtain ⟨-, h4, -⟩ := C35_ksd_norm big kp hk.1 hm y hy bs hbs
  have h5 := C35_ksd_value big kp hm y hy bs hbs none none
  have h6 := C35_ksd_value big kp hm y hy bs hbs none (some fun i => max (hess i) 0)
  simp only [add_zero, sub_zero, max_eq_right h4] at h5 h6
  rw [h5, Except.ok.injEq] at h1
  subst h1
  have hm2 : (0 : ℝ) < (m : ℝ) ^ 2 := by positivity
  have hsum : 0 ≤ ∑ i, max (hess i) 0 := Finset.sum_nonneg fun i _ => le_max_right _ _
  have hl : 0 ≤ (∑ i, max (hess i) 0) / (m : ℝ) ^ 2 := div_nonneg hsum hm2.le
  rw [max_eq_right (add_nonneg h4 hl)] at h6
  refine ⟨_, _, h5, h6, h2, Real.sqrt_le_sqrt (le_add_of_nonneg_right hl), ?_⟩
  rw [Real.sqrt_inj (add_nonneg h4 hl) h4, add_eq_left, div_eq_zero_iff, or_iff_left hm2.ne', Finset.sum_eq_zero_iff_of_nonneg fun i _ => le_max_right _ _]
  exact ⟨fun h i => max_eq_right_iff.1 (h i (Finset.mem_univ i)), fun h i _ => max_eq_right (h i)⟩

example (big : ℝ) (score : Vec 1 → Vec 1) (x : Fin 2 → Vec 1) :=
  C90_laplace big _ (C90_strict _ (check_squaredExponential one_pos one_pos) trivial trivial trivial one_pos score) two_pos (⟨x, ![1, 2]⟩ : Data 2 (Vec 1) ℝ)
    (by rw [Fin.sum_univ_two]; norm_num) (.leaf none) (Or.inl rfl) ![-1, 3]

/-- **C90.** No selection and no weighting of given rows gets below a positive discrepancy, and exactly one weighting of the rows attains it. -/
theorem C90_floor (big : ℝ) (kp : X → X → ℝ) (hk : IsStrict kp) {n : ℕ} (hn : 0 < n) (x : Fin n → X) (hx : Function.Injective x) (bs : PyTree (Option ℤ)) (hbs : ValidBlock bs) :
    ∃ (δ : ℝ) (w : Fin n → ℝ), 0 < δ ∧ ∑ i, w i = 1 ∧ ksdCompute big kp (⟨x, w⟩ : Data n X ℝ) bs none none = .ok δ ∧
      (∀ (m : ℕ) (y : Data m X ℝ), (∀ i, ∃ j, y.data i = x j) → ∑ i, y.weights i ≠ 0 → ∃ r, ksdCompute big kp y bs none none = .ok r ∧ δ ≤ r) ∧
      ∀ v : Fin n → ℝ, ∑ i, v i = 1 → ksdCompute big kp (⟨x, v⟩ : Data n X ℝ) bs none none = .ok δ → v = w := by
  classical
  have hunit : IsUnit (Matrix.of fun i j => kp (x i) (x j)) := by
    rw [← Matrix.mulVec_injective_iff_isUnit]
    intro a b hab
    have : ∀ j, a j - b j = 0 := Strict.indep hk x hx (fun j => a j - b j) fun i => by
      have := congrFun hab i
      simp only [Matrix.mulVec, dotProduct, Matrix.of_apply] at this
      simp only [mul_sub, Finset.sum_sub_distrib, this, sub_self]
    funext j
    exact sub_eq_zero.1 (this j)
  obtain ⟨u, hu⟩ : ∃ u : Fin n → ℝ, ∀ i, ∑ j, kp (x i) (x j) * u j = 1 := by
    obtain ⟨u, hu⟩ := (Matrix.mulVec_surjective_iff_isUnit.2 hunit) (fun _ => 1)
    exact ⟨u, fun i => congrFun hu i⟩
  have hform : ∀ p : Fin n → ℝ, ∑ i, ∑ j, p i * u j * kp (x i) (x j) = ∑ i, p i := fun p =>
    Finset.sum_congr rfl fun i _ => by
      refine Eq.trans ?_ ((congrArg (p i * ·) (hu i)).trans (mul_one _))
      rw [Finset.mul_sum]
      exact Finset.sum_congr rfl fun j _ => by ring
  have hV : 0 < ∑ i, u i := by
    rw [← hform u]
    refine lt_of_le_of_ne (hk.1.2 n x u) fun h => ?_
    have := hk.2 n x u hx h.symm
    have h1 := hu ⟨0, hn⟩
    simp only [this, mul_zero, Finset.sum_const_zero] at h1
    norm_num at h1
  obtain ⟨V, hVe⟩ : ∃ V, V = ∑ i, u i := ⟨_, rfl⟩
  rw [← hVe] at hV
  -- the form at a point of the hyperplane is the minimum plus the form of the difference
  have key : ∀ p : Fin n → ℝ, ∑ i, p i = 1 → ∑ i, ∑ j, p i * p j * kp (x i) (x j) = 1 / V + ∑ i, ∑ j, (p i - u i / V) * (p j - u j / V) * kp (x i) (x j) := by
    intro p hp
    have e : ∀ i j, (p i - u i / V) * (p j - u j / V) * kp (x i) (x j)
        = p i * p j * kp (x i) (x j) - 1 / V * (p i * u j * kp (x i) (x j)) - 1 / V * (p j * u i * kp (x j) (x i)) + 1 / V ^ 2 * (u i * u j * kp (x i) (x j)) := by
      intro i j
      rw [hk.1.1 (x j) (x i)]
      field_simp
      ring
    simp only [e, Finset.sum_add_distrib, Finset.sum_sub_distrib, ← Finset.mul_sum]
    rw [Finset.sum_comm (f := fun i j => p j * u i * kp (x j) (x i)), hform p, hform u, hp, ← hVe]
    field_simp
    ring
  have hone : ∑ i, u i / V = 1 := by rw [← Finset.sum_div, ← hVe, div_self hV.ne']
  have hval : ∀ (m : ℕ) (y : Data m X ℝ) (f : Fin m → Fin n), (∀ i, y.data i = x (f i)) → ∑ i, y.weights i ≠ 0 → ∃ p : Fin n → ℝ, ∑ i, p i = 1 ∧
      ksdCompute big kp y bs none none = .ok (Real.sqrt (1 / V + ∑ i, ∑ j, (p i - u i / V) * (p j - u j / V) * kp (x i) (x j))) ∧ p = fun a => massAt f y.weights a / ∑ i, y.weights i := by
    intro m y f hf hy
    have hm : 0 < m := by
      rcases Nat.eq_zero_or_pos m with rfl | h
      · exact absurd (Finset.sum_of_isEmpty _) hy
      · exact h
    refine ⟨_, sum_mass f y.weights hy Finset.univ fun i => Finset.mem_univ _, ?_, rfl⟩
    rw [(C35_ksd_norm big kp hk.1 hm y hy bs hbs).1, ← key _ (sum_mass f y.weights hy Finset.univ fun i => Finset.mem_univ _),
      ← avg_avg (fun a b => kp (x a) (x b)) f y.weights Finset.univ fun i => Finset.mem_univ _]
    simp only [hf]
  have hself : ∀ v : Fin n → ℝ, ∑ i, v i = 1 → ksdCompute big kp (⟨x, v⟩ : Data n X ℝ) bs none none
      = .ok (Real.sqrt (1 / V + ∑ i, ∑ j, (v i - u i / V) * (v j - u j / V) * kp (x i) (x j))) := by
    intro v hv
    obtain ⟨p, -, h2, rfl⟩ := hval n ⟨x, v⟩ id (fun _ => rfl) (by rw [hv]; norm_num)
    have : (fun a => massAt id v a / ∑ i, v i) = v := by
      funext a
      rw [hv, div_one]
      exact Strict.massAt_single (id : Fin n → Fin n) v a fun i hi => hi
    rw [this] at h2
    exact h2
  refine ⟨Real.sqrt (1 / V), fun i => u i / V, Real.sqrt_pos.2 (by positivity), hone, ?_, fun m y hy h => ?_, fun v hv h => ?_⟩
  · rw [hself _ hone]
    simp
  · choose f hf using hy
    obtain ⟨p, -, h2, -⟩ := hval m y f hf h
    exact ⟨_, h2, Real.sqrt_le_sqrt (le_add_of_nonneg_right (hk.1.2 n x fun i => p i - u i / V))⟩
  · rw [hself v hv, Except.ok.injEq] at h
    have hnn := hk.1.2 n x fun i => v i - u i / V
    have h1 : 1 / V + ∑ i, ∑ j, (v i - u i / V) * (v j - u j / V) * kp (x i) (x j) = 1 / V :=
      (Real.sqrt_inj (by positivity) (by positivity)).1 h
    have h2 := hk.2 n x (fun i => v i - u i / V) hx (by linarith)
    funext i
    exact sub_eq_zero.1 (h2 i)

/-- Three rows of the plane and a score that is not a gradient. -/
example (big : ℝ) : ∃ (δ : ℝ) (w : Fin 3 → ℝ), 0 < δ ∧ ∑ i, w i = 1 ∧
    ∀ f : Fin 7 → Fin 3, ∃ r, ksdCompute big (KExpr.stein (.rationalQuadratic 1 1 2) fun z : Vec 2 => ![z 1, -z 0]).sem.compute
      (Data.ofArray fun t => fun _ : Fin 2 => ((f t : ℕ) : ℝ)) (.leaf none) none none = .ok r ∧ δ ≤ r := by
  obtain ⟨δ, w, h1, h2, -, h4, -⟩ := C90_floor big _ (C90_strict (.rationalQuadratic 1 1 2 : KExpr 2) (check_rationalQuadratic one_pos one_pos two_pos)
    (by show (2 : ℝ) ≠ 0; norm_num) (by show (2 : ℝ) ≠ 0; norm_num) trivial (by norm_num) fun z : Vec 2 => ![z 1, -z 0]) (n := 3) (by norm_num)
    (fun i _ => ((i : ℕ) : ℝ)) (fun a b h => Fin.ext (Nat.cast_injective (congrFun h 0))) (.leaf none) (Or.inl rfl)
  exact ⟨δ, w, h1, h2, fun f => h4 7 _ (fun i => ⟨f i, rfl⟩) (by simp [Data.ofArray])⟩

end

/-- **C90.** With a Stein kernel the maximum mean discrepancy, too, is zero only for samples with the same shares of weight, and distinct points have an invertible Gram matrix. -/
theorem C90_mmd {d : ℕ} (big : ℝ) (K : KExpr d) (hc : K.check = .ok ()) (hp : K.PsdDomain) (hs : K.Smooth) (hK : K.SteinSeparating) (hd : 0 < d) (score : Vec d → Vec d)
    {n m : ℕ} (hn : 0 < n) (hm : 0 < m) (x : Data n (Vec d) ℝ) (y : Data m (Vec d) ℝ) (hx : ∑ i, x.weights i ≠ 0) (hy : ∑ i, y.weights i ≠ 0) (bs : PyTree (Option ℤ)) (hbs : ValidBlock bs) :
    (mmdCompute big (KExpr.stein K score).sem.compute x y bs = .ok 0 ↔ ∀ a, massAt x.data x.weights a / ∑ i, x.weights i = massAt y.data y.weights a / ∑ i, y.weights i) ∧
    (Matrix.of fun i j => (KExpr.stein K score).sem.compute (x.data i) (x.data j) : Matrix (Fin n) (Fin n) ℝ).rank = (Set.range x.data).ncard :=
  ⟨C87_mmd_zero_iff big _ (C90_strict K hc hp hs hK hd score) hn hm x y hx hy bs hbs, C87_rank _ (C90_strict K hc hp hs hK hd score) x.data⟩

/-- Points 0, 1 and 2 on the line: the Gram matrix of the Stein kernel has rank three, for every score. -/
example (score : Vec 1 → Vec 1) : (Matrix.of fun i j : Fin 3 => (KExpr.stein (.pcimq 1 2) score).sem.compute (fun _ => ((i : ℕ) : ℝ)) (fun _ => ((j : ℕ) : ℝ))).rank = 3 := by
  have h := (C90_mmd 0 (.pcimq 1 2 : KExpr 1) (check_squaredExponential (d := 1) one_pos two_pos) trivial trivial trivial one_pos score (n := 3) (m := 3) (by norm_num) (by norm_num)
    (Data.ofArray fun i _ => ((i : ℕ) : ℝ)) (Data.ofArray fun i _ => ((i : ℕ) : ℝ)) (by simp [Data.ofArray]) (by simp [Data.ofArray]) (.leaf none) (Or.inl rfl)).2
  refine h.trans ?_
  rw [show Set.range (Data.ofArray (K := ℝ) fun (i : Fin 3) (_ : Fin 1) => ((i : ℕ) : ℝ)).data = (fun (i : Fin 3) (_ : Fin 1) => ((i : ℕ) : ℝ)) '' Set.univ from Set.image_univ.symm,
    Set.ncard_image_of_injective _ (fun a b h => Fin.ext (Nat.cast_injective (congrFun h 0))), Set.ncard_univ, Nat.card_eq_fintype_card, Fintype.card_fin]

/-- **C90.** Among the non-negative weightings of given rows one has the least discrepancy, which is positive, and the coresets of Stein thinning with `unique=False` approach it: for every size the computed
discrepancy of the coreset lies between that value and that value plus `sqrt (R / size)`. -/
theorem C90_thinning {X : Type} [Zero X] (big : ℝ) (kp : X → X → ℝ) (hk : IsStrict kp) {n : ℕ} [NeZero n] (x : Fin n → X) (R : ℝ) (hR : ∀ j, kp (x j) (x j) ≤ R) :
    ∃ v : Fin n → ℝ, (∀ i, 0 ≤ v i) ∧ ∑ i, v i = 1 ∧ 0 < ksd kp x v ∧
      ∀ (bs bs' : PyTree (Option ℤ)), ValidBlock bs → ValidBlock bs' → ∀ (size : ℕ), 0 < size → size ≤ n → ∀ (w : Fin n → ℝ), (∀ i, 0 < w i) → ∀ ord : List (Fin (size + (size - size))), (∀ t, t ∈ ord) →
        ∃ (f : Fin size → Fin n) (r : ℝ), steinReduce big kp false bs size ⟨x, w⟩ none ord = .ok ⟨fun t => (f t : ℤ), fun _ => 1⟩ ∧
          ksdCompute big kp (Data.ofArray fun t => x (f t)) bs' none none = .ok r ∧ ksd kp x v ≤ r ∧ r ≤ ksd kp x v + Real.sqrt (R / size) := by
  classical
  have hn : 0 < n := NeZero.pos n
  have havg : ∀ v : Fin n → ℝ, ∑ i, v i = 1 → (avg v fun i => avg v fun j => kp (x i) (x j)) = ∑ i, ∑ j, v i * v j * kp (x i) (x j) := by
    intro v hv
    simp only [avg, hv, div_one, Finset.mul_sum, mul_assoc]
  obtain ⟨v, hv, hmin⟩ := (isCompact_stdSimplex ℝ (Fin n)).exists_isMinOn ⟨_, single_mem_stdSimplex ℝ (⟨0, hn⟩ : Fin n)⟩
    (f := fun v : Fin n → ℝ => ∑ i, ∑ j, v i * v j * kp (x i) (x j)) (by fun_prop)
  refine ⟨v, hv.1, hv.2, ?_, fun bs bs' hbs hbs' size hsize hsn w hw ord hord => ?_⟩
  · obtain ⟨r, h1, h2⟩ := C90_ksd_pos big kp hk hn ⟨x, v⟩ (by rw [hv.2]; norm_num) (.leaf none) (Or.inl rfl)
    have h3 := (C35_ksd_norm big kp hk.1 hn (⟨x, v⟩ : Data n X ℝ) (by rw [hv.2]; norm_num) (.leaf none) (Or.inl rfl)).1
    rw [h3, Except.ok.injEq] at h1
    exact lt_of_lt_of_eq h2 h1.symm
  · obtain ⟨f, h1, h2⟩ := C49_stein_rate big kp hk.1.1 bs hbs size hsize ⟨x, w⟩ (fun c => hk.1.2 n x c) ord hord (posCount_of_pos hw hsn)
    have hs : (0 : ℝ) < size := by exact_mod_cast hsize
    have hsum : ∑ _i : Fin size, (1 : ℝ) ≠ 0 := by simpa using hsize.ne'
    refine ⟨f, _, h1, (C35_ksd_norm big kp hk.1 hsize (Data.ofArray fun t => x (f t)) hsum bs' hbs').1, ?_, ?_⟩
    · refine Real.sqrt_le_sqrt ?_
      have e : (avg (fun _ : Fin size => (1 : ℝ)) fun i => avg (fun _ => (1 : ℝ)) fun j => kp (x (f i)) (x (f j)))
          = ∑ a, ∑ b, massAt f (fun _ => (1 : ℝ)) a / (∑ _i : Fin size, (1 : ℝ)) * (massAt f (fun _ => (1 : ℝ)) b / ∑ _i : Fin size, (1 : ℝ)) * kp (x a) (x b) :=
        avg_avg (fun a b => kp (x a) (x b)) f _ Finset.univ fun i => Finset.mem_univ _
      rw [havg v hv.2]
      refine (hmin ⟨fun a => ?_, sum_mass f _ hsum Finset.univ fun i => Finset.mem_univ _⟩).trans e.ge
      refine div_nonneg ?_ (Finset.sum_nonneg fun _ _ => zero_le_one)
      unfold massAt
      exact Finset.sum_nonneg fun i _ => by split_ifs <;> norm_num
    · refine (h2 v hv.1 (by rw [hv.2]; norm_num) fun j _ => hw j).trans (add_le_add le_rfl (Real.sqrt_le_sqrt (div_le_div_of_nonneg_right ?_ hs.le)))
      show avg v (fun j => kp (x j) (x j)) ≤ R
      rw [avg, hv.2, div_one]
      calc ∑ j, v j * kp (x j) (x j) ≤ ∑ j, v j * R := Finset.sum_le_sum fun j _ => mul_le_mul_of_nonneg_left (hR j) (hv.1 j)
        _ = R := by rw [← Finset.sum_mul, hv.2, one_mul]

/-- The squared exponential kernel with the score of the standard normal distribution. -/
example (big : ℝ) (x : Fin 5 → Vec 2) (R : ℝ) (hR : ∀ j, (KExpr.stein (.squaredExponential 1 1) fun z : Vec 2 => -z).sem.compute (x j) (x j) ≤ R) :=
  C90_thinning big _ (C90_strict (.squaredExponential 1 1 : KExpr 2) (check_squaredExponential one_pos one_pos) trivial trivial trivial (by norm_num) fun z => -z) x R hR

/-- **C90, boundary.** With a linear base kernel the discrepancy can be zero: one point, standard normal score. -/
theorem C90_linear_zero (big : ℝ) (bs : PyTree (Option ℤ)) (hbs : ValidBlock bs) :
    ksdCompute big (KExpr.stein (.linear 1 0) fun z : Vec 1 => -z).sem.compute (Data.ofArray (n := 1) fun _ _ => 1) bs none none = .ok 0 := by
  rw [C35_ksd_value big _ one_pos _ (by simp [Data.ofArray]) bs hbs none none]
  simp [avg, Data.ofArray, KExpr.sem, KSem.ofCompute, steinCompute, linearSem, vdot]

example := C90_linear_zero 1000 (.leaf none) (Or.inl rfl)

end Coreax
