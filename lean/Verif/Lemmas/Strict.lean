import Verif.Spec.Strict
import Verif.Lemmas.Matern
import Mathlib.MeasureTheory.Measure.OpenPos
import Mathlib.Analysis.Calculus.Deriv.Abs
import Mathlib.LinearAlgebra.LinearIndependent.Basic

/-!
# Strictly positive definite kernels

Closure properties; Gaussians (independence of characters), inverse powers, half-integer Matérn functions (mixtures), functions with a kink.
-/

set_option linter.unusedSectionVars false

namespace Coreax.Spec

open Filter Topology MeasureTheory Set
open scoped RealInnerProductSpace

universe u
variable {X : Type u}

/-- A combination of norm zero vanishes as a function. -/
theorem IsPSD.eval_zero {k : X → X → ℝ} (hk : IsPSD k) {n : ℕ} (x : Fin n → X) (c : Fin n → ℝ)
    (h : ∑ i, ∑ j, c i * c j * k (x i) (x j) = 0) (y : X) : ∑ i, c i * k (x i) y = 0 := by
  obtain ⟨H, i1, i2, φ, hφ⟩ := hk.exists_feature
  have e : ∑ i, ∑ j, c i * c j * k (x i) (x j) = ⟪∑ i, c i • φ (x i), ∑ i, c i • φ (x i)⟫ := by
    simp only [sum_inner, inner_sum, inner_smul_left, inner_smul_right, RCLike.conj_to_real, hφ]
    refine Finset.sum_congr rfl (fun i _ => ?_)
    rw [Finset.mul_sum]
    exact Finset.sum_congr rfl fun j _ => by rw [real_inner_comm]; ring
  rw [e, inner_self_eq_zero] at h
  have := congrArg (fun v => ⟪v, φ y⟫) h
  simpa only [sum_inner, inner_smul_left, RCLike.conj_to_real, inner_zero_left, ← hφ] using this

theorem isStrict_of_eval {k : X → X → ℝ} (hk : IsPSD k)
    (h : ∀ (n : ℕ) (x : Fin n → X) (c : Fin n → ℝ), Function.Injective x → (∀ y, ∑ i, c i * k (x i) y = 0) → ∀ i, c i = 0) : IsStrict k :=
  ⟨hk, fun n x c hx h0 => h n x c hx (hk.eval_zero x c h0)⟩

theorem IsStrict.congr {k r : X → X → ℝ} (hk : IsStrict k) (h : ∀ a b, r a b = k a b) : IsStrict r := by
  have : r = k := by funext a b; exact h a b
  rwa [this]

theorem IsStrict.add {k r : X → X → ℝ} (hk : IsStrict k) (hr : IsPSD r) : IsStrict (fun a b => k a b + r a b) := by
  refine ⟨hk.1.add hr, fun n x c hx h => hk.2 n x c hx ?_⟩
  simp only [mul_add, Finset.sum_add_distrib] at h
  have h1 := hk.1.2 n x c
  have h2 := hr.2 n x c
  linarith

theorem IsStrict.smul {k : X → X → ℝ} (hk : IsStrict k) {a : ℝ} (ha : 0 < a) : IsStrict (fun x y => a * k x y) := by
  refine ⟨hk.1.smul ha.le, fun n x c hx h => hk.2 n x c hx ?_⟩
  have e : ∑ i, ∑ j, c i * c j * (a * k (x i) (x j)) = a * ∑ i, ∑ j, c i * c j * k (x i) (x j) := by
    simp only [Finset.mul_sum]
    exact Finset.sum_congr rfl fun i _ => Finset.sum_congr rfl fun j _ => by ring
  rw [e] at h
  exact (mul_eq_zero.1 h).resolve_left ha.ne'

section
open scoped MatrixOrder ComplexOrder Matrix.Norms.L2Operator

theorem exists_factor {n : ℕ} {A : Matrix (Fin n) (Fin n) ℝ} (hA : A.PosSemidef) : ∃ B : Matrix (Fin n) (Fin n) ℝ, A = star B * B :=
  CStarAlgebra.nonneg_iff_eq_star_mul_self.mp hA.nonneg

end

/-- The product with a kernel that is positive on the diagonal. -/
theorem IsStrict.mul {k r : X → X → ℝ} (hk : IsStrict k) (hr : IsPSD r) (hd : ∀ a, 0 < r a a) : IsStrict (fun a b => k a b * r a b) := by
  refine ⟨hk.1.mul hr, fun n x c hx h => ?_⟩
  obtain ⟨B, hB⟩ := exists_factor (hr.posSemidef x)
  have hr' : ∀ i j, r (x i) (x j) = ∑ t, B t i * B t j := by
    intro i j
    have := congrFun (congrFun hB i) j
    simpa [Matrix.mul_apply, Matrix.star_eq_conjTranspose] using this
  have e : ∑ i, ∑ j, c i * c j * (k (x i) (x j) * r (x i) (x j)) = ∑ t, ∑ i, ∑ j, (c i * B t i) * (c j * B t j) * k (x i) (x j) := by
    refine Eq.trans (Finset.sum_congr rfl fun i _ => ?_) Finset.sum_comm
    refine Eq.trans (Finset.sum_congr rfl fun j _ => ?_) Finset.sum_comm
    rw [hr', Finset.mul_sum, Finset.mul_sum]
    exact Finset.sum_congr rfl fun t _ => by ring
  rw [e, Finset.sum_eq_zero_iff_of_nonneg fun t _ => hk.1.2 n x _] at h
  intro i
  have h1 : ∀ t, c i * B t i = 0 := fun t => hk.2 n x _ hx (h t (Finset.mem_univ t)) i
  by_contra hc
  have h2 : ∀ t, B t i = 0 := fun t => (mul_eq_zero.1 (h1 t)).resolve_left hc
  have := hd (x i)
  rw [hr'] at this
  simp [h2] at this

theorem IsStrict.diag_pos {k : X → X → ℝ} (hk : IsStrict k) (a : X) : 0 < k a a := by
  refine lt_of_le_of_ne ?_ fun h => ?_
  · simpa using hk.1.2 1 (fun _ => a) (fun _ => 1)
  · have := hk.2 1 (fun _ => a) (fun _ => 1) (fun _ _ _ => Subsingleton.elim _ _) (by simpa using h.symm) 0
    exact one_ne_zero this

theorem IsStrict.pow {k : X → X → ℝ} (hk : IsStrict k) (p : ℕ) : IsStrict (fun x y => k x y ^ (p + 1)) := by
  induction p with
  | zero => simpa using hk
  | succ p ih => exact (ih.mul hk.1 hk.diag_pos).congr fun a b => pow_succ _ _

theorem IsStrict.comp {Z : Type*} {k : X → X → ℝ} (hk : IsStrict k) {g : Z → X} (hg : Function.Injective g) : IsStrict (fun a b => k (g a) (g b)) :=
  ⟨hk.1.comp g, fun n x c hx h => hk.2 n (fun i => g (x i)) c (hg.comp hx) h⟩

/-- A sample of distinct points over any finite index type. -/
theorem IsStrict.finite {k : X → X → ℝ} (hk : IsStrict k) {ι : Type*} [Fintype ι] (x : ι → X) (hx : Function.Injective x) (c : ι → ℝ)
    (h : ∑ i, ∑ j, c i * c j * k (x i) (x j) = 0) (i : ι) : c i = 0 := by
  let e := Fintype.equivFin ι
  have := hk.2 (Fintype.card ι) (fun i => x (e.symm i)) (fun i => c (e.symm i)) (hx.comp e.symm.injective) (by
    rw [← h, ← Equiv.sum_comp e.symm (fun i => ∑ j, c i * c j * k (x i) (x j))]
    refine Finset.sum_congr rfl fun i _ => ?_
    rw [← Equiv.sum_comp e.symm (fun j => c _ * c j * k _ (x j))]) (e i)
  simpa using this

/-- Mixtures with non-negative density: one strict member on a set of positive measure is enough; stated for the points at hand. -/
theorem form_integral {T : Type*} [MeasurableSpace T] (μ : Measure T) {k : T → X → X → ℝ}
    (hi : ∀ a b, Integrable (fun t => k t a b) μ) (hk : ∀ᵐ t ∂μ, IsPSD (k t)) {n : ℕ} (x : Fin n → X) (c : Fin n → ℝ)
    (h : ∑ i, ∑ j, c i * c j * ∫ t, k t (x i) (x j) ∂μ = 0) : ∀ᵐ t ∂μ, ∑ i, ∑ j, c i * c j * k t (x i) (x j) = 0 := by
  have : ∑ i, ∑ j, c i * c j * ∫ t, k t (x i) (x j) ∂μ = ∫ t, ∑ i, ∑ j, c i * c j * k t (x i) (x j) ∂μ := by
    rw [integral_finsetSum _ fun i _ => integrable_finsetSum _ fun j _ => (hi _ _).const_mul _]
    refine Finset.sum_congr rfl fun i _ => ?_
    rw [integral_finsetSum _ fun j _ => (hi _ _).const_mul _]
    exact Finset.sum_congr rfl fun j _ => (integral_const_mul _ _).symm
  rw [this] at h
  exact (integral_eq_zero_iff_of_nonneg_ae (hk.mono fun t ht => ht.2 n x c)
    (integrable_finsetSum _ fun i _ => integrable_finsetSum _ fun j _ => (hi _ _).const_mul _)).1 h

/-- A squared distance whose Gaussians are strict. -/
def IsStrictSqDist (q : X → X → ℝ) : Prop := IsSqDist q ∧ ∀ t : ℝ, 0 < t → IsStrict (fun a b => Real.exp (-(t * q a b)))

theorem IsStrictSqDist.scale {q : X → X → ℝ} (h : IsStrictSqDist q) {r : ℝ} (hr : 0 < r) : IsStrictSqDist (fun a b => r * q a b) :=
  ⟨h.1.scale hr.le, fun t ht => (h.2 (t * r) (mul_pos ht hr)).congr fun a b => by rw [mul_assoc]⟩

theorem IsStrictSqDist.inv_pow {q : X → X → ℝ} (h : IsStrictSqDist q) {c p : ℝ} (hc : 0 < c) (hp : 0 < p) :
    IsStrict (fun a b => (c + q a b) ^ (-p)) := by
  refine ⟨h.1.inv_pow hc hp, fun n x v hx hv => ?_⟩
  have key : ∀ a b, (c + q a b) ^ (-p)
      = (Real.Gamma p)⁻¹ * ∫ t in Ioi (0 : ℝ), t ^ (p - 1) * Real.exp (-((c + q a b) * t)) := by
    intro a b
    have hpos : 0 < c + q a b := add_pos_of_pos_of_nonneg hc (h.1.1 a b)
    rw [Real.integral_rpow_mul_exp_neg_mul_Ioi hp hpos, Real.rpow_neg hpos.le, one_div, Real.inv_rpow hpos.le]
    have := (Real.Gamma_pos_of_pos hp).ne'
    field_simp
  have hint : ∀ a b, IntegrableOn (fun t => t ^ (p - 1) * Real.exp (-((c + q a b) * t))) (Ioi (0 : ℝ)) := by
    intro a b
    have hpos : 0 < c + q a b := add_pos_of_pos_of_nonneg hc (h.1.1 a b)
    have := integrableOn_rpow_mul_exp_neg_mul_rpow (p := 1) (s := p - 1) (b := c + q a b) (by linarith) zero_lt_one hpos
    simpa only [Real.rpow_one, neg_mul] using this
  have hst : ∀ t : ℝ, 0 < t → IsStrict fun a b => t ^ (p - 1) * Real.exp (-((c + q a b) * t)) := by
    intro t ht
    refine ((h.2 t ht).smul (a := t ^ (p - 1) * Real.exp (-(c * t))) (by positivity)).congr fun a b => ?_
    rw [mul_assoc, ← Real.exp_add]
    congr 2
    ring
  have h0 : ∑ i, ∑ j, v i * v j * ∫ t in Ioi (0 : ℝ), t ^ (p - 1) * Real.exp (-((c + q (x i) (x j)) * t)) = 0 := by
    have hG : (Real.Gamma p)⁻¹ ≠ 0 := inv_ne_zero (Real.Gamma_pos_of_pos hp).ne'
    refine (mul_eq_zero.1 (?_ : (Real.Gamma p)⁻¹ * _ = 0)).resolve_left hG
    refine Eq.trans ?_ hv
    rw [Finset.mul_sum]
    refine Finset.sum_congr rfl fun i _ => ?_
    rw [Finset.mul_sum]
    refine Finset.sum_congr rfl fun j _ => ?_
    beta_reduce
    rw [key]; ring
  have h1 := form_integral (volume.restrict (Ioi (0 : ℝ))) (k := fun t a b => t ^ (p - 1) * Real.exp (-((c + q a b) * t))) hint
    ((ae_restrict_iff' measurableSet_Ioi).2 (ae_of_all _ fun t ht => (hst t ht).1)) x v h0
  have h2 := h1.and (ae_restrict_mem measurableSet_Ioi)
  have : (volume.restrict (Ioi (0 : ℝ))) ≠ 0 := by
    rw [Ne, Measure.restrict_eq_zero]
    simp
  have : (ae (volume.restrict (Ioi (0 : ℝ)))).NeBot := ae_neBot.2 this
  obtain ⟨t, ht, ht0⟩ := h2.exists
  exact (hst t ht0).2 n x v hx ht

/-- Half-integer Matérn functions: if the exponential of the distance is strict, so are all of them. -/
theorem IsSqDist.matern_strict {q : X → X → ℝ} (h : IsSqDist q) {a : ℝ} (ha : 0 < a)
    (h0 : IsStrict fun x y => Real.exp (-(a * Real.sqrt (q x y)))) (p : ℕ) : IsStrict (fun x y => matG p (a * Real.sqrt (q x y + 0))) := by
  induction p with
  | zero =>
    refine h0.congr fun x y => ?_
    simp [matG, bessQ, bessC]
  | succ m ih =>
    refine ⟨h.matern ha (m + 1) le_rfl, fun n x c hx hc => ih.2 n x c hx ?_⟩
    have key : ∀ s : ℝ, 0 ≤ s →
        IntegrableOn (fun σ => -(a ^ 2) * matG m (a * Real.sqrt (s + σ))) (Ioi 0) ∧
        ∫ σ in Ioi (0 : ℝ), -(a ^ 2) * matG m (a * Real.sqrt (s + σ)) = 0 - matG (m + 1) (a * Real.sqrt (s + 0)) := by
      intro s hs
      have hcont : ContinuousWithinAt (fun σ => matG (m + 1) (a * Real.sqrt (s + σ))) (Ici 0) 0 := by
        have := continuous_matG (m + 1)
        have : Continuous (fun σ => matG (m + 1) (a * Real.sqrt (s + σ))) := by fun_prop
        exact this.continuousWithinAt
      have hder : ∀ σ ∈ Ioi (0 : ℝ), HasDerivAt (fun σ => matG (m + 1) (a * Real.sqrt (s + σ)))
          (-(a ^ 2) * matG m (a * Real.sqrt (s + σ))) σ := by
        intro σ hσ
        have hσ : 0 < σ := hσ
        have hp : 0 < s + σ := by linarith
        have h1 : HasDerivAt (fun σ => s + σ) 1 σ := (hasDerivAt_id σ).const_add s
        have h2 := (h1.sqrt hp.ne').const_mul a
        have h3 := (hasDerivAt_matG m (a * Real.sqrt (s + σ))).comp σ h2
        refine h3.congr_deriv ?_
        have h4 := Real.sqrt_pos.2 hp
        field_simp
      have hneg : ∀ σ ∈ Ioi (0 : ℝ), -(a ^ 2) * matG m (a * Real.sqrt (s + σ)) ≤ 0 := by
        intro σ _
        have := matG_nonneg m (mul_nonneg ha.le (Real.sqrt_nonneg (s + σ)))
        nlinarith [sq_nonneg a, mul_nonneg (sq_nonneg a) this]
      have hlim : Tendsto (fun σ => matG (m + 1) (a * Real.sqrt (s + σ))) atTop (𝓝 0) := by
        refine (tendsto_matG (m + 1)).comp (Tendsto.const_mul_atTop ha ?_)
        exact Real.tendsto_sqrt_atTop.comp (tendsto_atTop_add_const_left _ _ tendsto_id)
      exact ⟨integrableOn_Ioi_deriv_of_nonpos hcont hder hneg hlim,
        integral_Ioi_of_hasDerivAt_of_nonpos hcont hder hneg hlim⟩
    have ha2 : a ^ 2 ≠ 0 := by positivity
    have hI : ∀ x y, IntegrableOn (fun σ => matG m (a * Real.sqrt (q x y + σ))) (Ioi 0) := by
      intro x y
      have := (key _ (h.1 x y)).1.const_mul (-(a ^ 2))⁻¹
      refine this.congr (ae_of_all _ fun σ => ?_)
      field_simp
    have hsum : ∑ i, ∑ j, c i * c j * ∫ σ in Ioi (0 : ℝ), matG m (a * Real.sqrt (q (x i) (x j) + σ)) = 0 := by
      refine (mul_eq_zero.1 (?_ : a ^ 2 * _ = 0)).resolve_left ha2
      refine Eq.trans ?_ hc
      rw [Finset.mul_sum]
      refine Finset.sum_congr rfl fun i _ => ?_
      rw [Finset.mul_sum]
      refine Finset.sum_congr rfl fun j _ => ?_
      have h2 := (key _ (h.1 (x i) (x j))).2
      rw [integral_const_mul] at h2
      have h3 : matG (m + 1) (a * Real.sqrt (q (x i) (x j) + 0)) = a ^ 2 * ∫ σ in Ioi (0 : ℝ), matG m (a * Real.sqrt (q (x i) (x j) + σ)) := by linarith
      beta_reduce
      rw [h3]; ring
    have h1 := form_integral (volume.restrict (Ioi (0 : ℝ))) (k := fun σ a' b => matG m (a * Real.sqrt (q a' b + σ))) hI
      ((ae_restrict_iff' measurableSet_Ioi).2 (ae_of_all _ fun σ hσ => h.matern ha m (le_of_lt hσ))) x c hsum
    rw [restrict_Ioi_eq_restrict_Ici] at h1
    have hcont : Continuous fun σ : ℝ => ∑ i, ∑ j, c i * c j * matG m (a * Real.sqrt (q (x i) (x j) + σ)) := by
      have := continuous_matG m
      fun_prop
    have h2 := Measure.eqOn_of_ae_eq (μ := volume) (s := Ici (0 : ℝ)) (f := fun σ => ∑ i, ∑ j, c i * c j * matG m (a * Real.sqrt (q (x i) (x j) + σ)))
      (g := fun _ => 0) h1 hcont.continuousOn continuousOn_const (by simp [closure_Ioi])
    exact h2 (show (0 : ℝ) ∈ Ici (0 : ℝ) from Set.self_mem_Ici)

/-! ### Kinks -/

theorem not_differentiable_exp_abs {τ B : ℝ} (hτ : τ ≠ 0) (hB : B ≠ 0) : ¬ DifferentiableAt ℝ (fun t : ℝ => B * Real.exp (τ * |t|)) 0 := by
  intro h
  have h1 : DifferentiableAt ℝ (fun t : ℝ => Real.exp (τ * |t|)) 0 := by
    have := h.const_mul B⁻¹
    refine this.congr_of_eventuallyEq (Eventually.of_forall fun t => ?_)
    field_simp
  have h2 : DifferentiableAt ℝ (fun t : ℝ => τ * |t|) 0 := by
    have := h1.log (Real.exp_pos _).ne'
    simpa only [Real.log_exp] using this
  have h3 : DifferentiableAt ℝ (fun t : ℝ => |t|) 0 := by
    have := h2.const_mul τ⁻¹
    refine this.congr_of_eventuallyEq (Eventually.of_forall fun t => ?_)
    field_simp
  exact not_differentiableAt_abs_zero h3

/-- A combination of exponentials of distances on the line determines the total coefficient at every place. -/
theorem sum_at_kink {ι : Type*} (s : Finset ι) (a b : ι → ℝ) {τ : ℝ} (hτ : τ ≠ 0) (h : ∀ t, ∑ i ∈ s, b i * Real.exp (τ * |a i - t|) = 0) (v : ℝ) :
    ∑ i ∈ s with a i = v, b i = 0 := by
  classical
  by_contra hB
  refine not_differentiable_exp_abs hτ hB ?_
  have e : (fun t : ℝ => (∑ i ∈ s with a i = v, b i) * Real.exp (τ * |t|)) = fun t => -∑ i ∈ s with a i ≠ v, b i * Real.exp (τ * |a i - (v + t)|) := by
    funext t
    have h1 := h (v + t)
    rw [← Finset.sum_filter_add_sum_filter_not s fun i => a i = v] at h1
    have h2 : ∑ i ∈ s with a i = v, b i * Real.exp (τ * |a i - (v + t)|) = (∑ i ∈ s with a i = v, b i) * Real.exp (τ * |t|) := by
      rw [Finset.sum_mul]
      refine Finset.sum_congr rfl fun i hi => ?_
      rw [(Finset.mem_filter.1 hi).2, show v - (v + t) = -t by ring, abs_neg]
    linarith
  rw [e]
  refine DifferentiableAt.fun_neg (DifferentiableAt.fun_sum fun i hi => ?_)
  have hne : a i - (v + 0) ≠ 0 := by
    have := (Finset.mem_filter.1 hi).2
    intro h0; exact this (by linarith)
  have h1 : DifferentiableAt ℝ (fun t : ℝ => a i - (v + t)) 0 := by fun_prop
  exact (((h1.abs hne).const_mul τ).exp).const_mul _

end Coreax.Spec
