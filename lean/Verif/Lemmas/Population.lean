import Verif.Spec.Population
import Verif.Lemmas.Kernel
import Mathlib.Probability.Independence.Basic
import Mathlib.MeasureTheory.Integral.Prod
import Mathlib.MeasureTheory.Measure.ProbabilityMeasure
import Mathlib.Analysis.SpecificLimits.Basic

/-!
# Kernels on distributions

The mean of a bounded positive semi-definite kernel over independent draws is a positive semi-definite kernel on distributions; points embed
as point masses.
-/

namespace Coreax.Spec

open Finset MeasureTheory ProbabilityTheory Filter Topology
open scoped RealInnerProductSpace

universe u
variable {X : Type u} {k : X → X → ℝ} {R : ℝ}

theorem IsPSD.abs_le (hk : IsPSD k) (hR : ∀ x, k x x ≤ R) (x y : X) : |k x y| ≤ R := by
  obtain ⟨H, _, _, φ, hφ⟩ := hk.exists_feature
  have h1 : ∀ z, ‖φ z‖ ^ 2 ≤ R := fun z => by
    rw [← real_inner_self_eq_norm_sq, ← hφ]
    exact hR z
  have h2 := abs_real_inner_le_norm (φ x) (φ y)
  rw [hφ]
  nlinarith [h1 x, h1 y, sq_nonneg (‖φ x‖ - ‖φ y‖)]

variable [MeasurableSpace X]

theorem integrable_kernel (hk : IsPSD k) (hm : Measurable fun q : X × X => k q.1 q.2) (hR : ∀ x, k x x ≤ R) (P : Measure (X × X))
    [IsFiniteMeasure P] : Integrable (fun q : X × X => k q.1 q.2) P :=
  Integrable.mono' (integrable_const R) hm.aestronglyMeasurable (by filter_upwards with q using hk.abs_le hR q.1 q.2)

theorem integrable_diag (hk : IsPSD k) (hm : Measurable fun q : X × X => k q.1 q.2) (hR : ∀ x, k x x ≤ R) (P : Measure X)
    [IsFiniteMeasure P] : Integrable (fun x => k x x) P :=
  Integrable.mono' (integrable_const R) (hm.comp (measurable_id.prodMk measurable_id)).aestronglyMeasurable
    (by filter_upwards with x using hk.abs_le hR x x)

theorem integrable_left (hk : IsPSD k) (hm : Measurable fun q : X × X => k q.1 q.2) (hR : ∀ x, k x x ≤ R) (P : Measure X)
    [IsFiniteMeasure P] (x : X) : Integrable (fun y => k x y) P :=
  Integrable.mono' (integrable_const R) (hm.comp (measurable_const.prodMk measurable_id)).aestronglyMeasurable
    (by filter_upwards with y using hk.abs_le hR x y)

section draws
variable {Ω : Type*} [MeasurableSpace Ω] {μ : Measure Ω} [IsProbabilityMeasure μ]

/-- The mean over two independent draws. -/
theorem mean_pair (hk : IsPSD k) (hm : Measurable fun q : X × X => k q.1 q.2) (hR : ∀ x, k x x ≤ R) {P Q : Measure X} {U V : Ω → X}
    (hU : Measurable U) (hV : Measurable V) (hP : μ.map U = P) (hQ : μ.map V = Q) (h : U ⟂ᵢ[μ] V) :
    Integrable (fun ω => k (U ω) (V ω)) μ ∧ ∫ ω, k (U ω) (V ω) ∂μ = meanOver k P Q := by
  have i1 : IsProbabilityMeasure P := hP ▸ Measure.isProbabilityMeasure_map hU.aemeasurable
  have i2 : IsProbabilityMeasure Q := hQ ▸ Measure.isProbabilityMeasure_map hV.aemeasurable
  have hp : μ.map (fun ω => (U ω, V ω)) = P.prod Q := by
    rw [(indepFun_iff_map_prod_eq_prod_map_map hU.aemeasurable hV.aemeasurable).1 h, hP, hQ]
  have hi := integrable_kernel hk hm hR (P.prod Q)
  constructor
  · have := (hp ▸ hi : Integrable (fun q : X × X => k q.1 q.2) (μ.map fun ω => (U ω, V ω)))
    exact this.comp_measurable (hU.prodMk hV)
  · have h1 : ∫ ω, k (U ω) (V ω) ∂μ = ∫ q, k q.1 q.2 ∂(μ.map fun ω => (U ω, V ω)) :=
      (integral_map (hU.prodMk hV).aemeasurable hm.aestronglyMeasurable).symm
    rw [h1, hp, integral_prod _ hi]
    rfl

/-- The mean over one draw, on the diagonal. -/
theorem mean_diag (hk : IsPSD k) (hm : Measurable fun q : X × X => k q.1 q.2) (hR : ∀ x, k x x ≤ R) {P : Measure X} {U : Ω → X}
    (hU : Measurable U) (hP : μ.map U = P) : Integrable (fun ω => k (U ω) (U ω)) μ ∧ ∫ ω, k (U ω) (U ω) ∂μ = ∫ x, k x x ∂P := by
  have i1 : IsProbabilityMeasure P := hP ▸ Measure.isProbabilityMeasure_map hU.aemeasurable
  have hi := integrable_diag hk hm hR P
  have hd : Measurable fun x => k x x := hm.comp (measurable_id.prodMk measurable_id)
  constructor
  · have := (hP ▸ hi : Integrable (fun x => k x x) (μ.map U))
    exact this.comp_measurable hU
  · rw [← hP, integral_map hU.aemeasurable hd.aestronglyMeasurable]

theorem mean_left (hk : IsPSD k) (hm : Measurable fun q : X × X => k q.1 q.2) (hR : ∀ x, k x x ≤ R) {P : Measure X} (Q : Measure X)
    [IsProbabilityMeasure Q] {U : Ω → X} (hU : Measurable U) (hP : μ.map U = P) :
    Integrable (fun ω => ∫ z, k (U ω) z ∂Q) μ ∧ ∫ ω, ∫ z, k (U ω) z ∂Q ∂μ = meanOver k P Q := by
  have i1 : IsProbabilityMeasure P := hP ▸ Measure.isProbabilityMeasure_map hU.aemeasurable
  have hi := (integrable_kernel hk hm hR (P.prod Q)).integral_prod_left
  constructor
  · have := (hP ▸ hi : Integrable (fun x => ∫ z, k x z ∂Q) (μ.map U))
    exact this.comp_measurable hU
  · have h2 : AEStronglyMeasurable (fun x => ∫ z, k x z ∂Q) (μ.map U) := hP ▸ hi.aestronglyMeasurable
    rw [meanOver, ← hP, integral_map hU.aemeasurable h2]

end draws

theorem meanOver_comm (hk : IsPSD k) (hm : Measurable fun q : X × X => k q.1 q.2) (hR : ∀ x, k x x ≤ R) (P Q : Measure X)
    [IsProbabilityMeasure P] [IsProbabilityMeasure Q] : meanOver k P Q = meanOver k Q P := by
  unfold meanOver
  rw [integral_integral_swap (integrable_kernel hk hm hR (P.prod Q))]
  simp only [fun x y => hk.1 x y]

/-- One independent draw from each of finitely many distributions. -/
theorem mean_draws (hk : IsPSD k) (hm : Measurable fun q : X × X => k q.1 q.2) (hR : ∀ x, k x x ≤ R) {ι : Type*} [Fintype ι] [DecidableEq ι]
    (P : ι → Measure X) [∀ i, IsProbabilityMeasure (P i)] (c : ι → ℝ) :
    0 ≤ ∑ p, ∑ q, c p * c q * (meanOver k (P p) (P q) + if p = q then popSpread k (P p) else 0) := by
  have hU : ∀ p, Measurable fun ω : ι → X => ω p := fun p => measurable_pi_apply p
  have hlaw : ∀ p, (Measure.pi P).map (fun ω => ω p) = P p := fun p => (measurePreserving_eval _ p).map_eq
  have hind : ∀ p q, p ≠ q → (fun ω : ι → X => ω p) ⟂ᵢ[Measure.pi P] (fun ω => ω q) := fun p q h =>
    (iIndepFun_pi (X := fun _ : ι => (id : X → X)) (μ := P) fun _ => aemeasurable_id).indepFun h
  have hE : ∀ p q, Integrable (fun ω : ι → X => k (ω p) (ω q)) (Measure.pi P) ∧ ∫ ω, k (ω p) (ω q) ∂(Measure.pi P) =
      meanOver k (P p) (P q) + if p = q then popSpread k (P p) else 0 := fun p q => by
    by_cases h : p = q
    · subst h
      have := mean_diag hk hm hR (hU p) (hlaw p)
      refine ⟨this.1, ?_⟩
      rw [this.2, if_pos rfl, popSpread]
      ring
    · have := mean_pair hk hm hR (hU p) (hU q) (hlaw p) (hlaw q) (hind p q h)
      refine ⟨this.1, ?_⟩
      rw [this.2, if_neg h, add_zero]
  have hpos : ∀ ω : ι → X, 0 ≤ ∑ p, ∑ q, c p * c q * k (ω p) (ω q) := fun ω => by
    obtain ⟨H, _, _, φ, hφ⟩ := hk.exists_feature
    have e : ∑ p, ∑ q, c p * c q * k (ω p) (ω q) = ⟪∑ p, c p • φ (ω p), ∑ p, c p • φ (ω p)⟫ := by
      simp only [sum_inner, inner_sum, inner_smul_left, inner_smul_right, RCLike.conj_to_real, hφ]
      refine Finset.sum_congr rfl (fun i _ => ?_)
      rw [Finset.mul_sum]
      exact Finset.sum_congr rfl fun j _ => by rw [real_inner_comm]; ring
    rw [e]
    exact real_inner_self_nonneg
  have h0 : 0 ≤ ∫ ω, ∑ p, ∑ q, c p * c q * k (ω p) (ω q) ∂(Measure.pi P) := integral_nonneg hpos
  have hterm : ∀ p q, Integrable (fun ω : ι → X => c p * c q * k (ω p) (ω q)) (Measure.pi P) := fun p q => (hE p q).1.const_mul _
  rw [integral_finsetSum _ fun p _ => integrable_finsetSum _ fun q _ => hterm p q] at h0
  refine h0.trans_eq (sum_congr rfl fun p _ => ?_)
  rw [integral_finsetSum _ fun q _ => hterm p q]
  refine sum_congr rfl fun q _ => ?_
  rw [integral_const_mul, (hE p q).2]

/-- The mean over independent draws is a kernel on distributions. -/
theorem IsPSD.measure (hk : IsPSD k) (hm : Measurable fun q : X × X => k q.1 q.2) (hR : ∀ x, k x x ≤ R) :
    IsPSD (fun P Q : ProbabilityMeasure X => meanOver k (P : Measure X) (Q : Measure X)) := by
  refine ⟨fun P Q => meanOver_comm hk hm hR _ _, fun n P c => ?_⟩
  obtain ⟨M, hM⟩ : ∃ M : Fin n → Fin n → ℝ, M = fun i j => meanOver k (P i : Measure X) (P j : Measure X) := ⟨_, rfl⟩
  obtain ⟨V, hV⟩ : ∃ V : Fin n → ℝ, V = fun i => popSpread k (P i : Measure X) := ⟨_, rfl⟩
  have key : ∀ N : ℕ, 0 ≤ (∑ i, ∑ j, c i * c j * M i j) + 1 / ((N : ℝ) + 1) * ∑ i, c i ^ 2 * V i := by
    intro N
    have h0 := mean_draws hk hm hR (fun p : Fin n × Fin (N + 1) => (P p.1 : Measure X)) fun p => c p.1
    have e0 : ∑ p : Fin n × Fin (N + 1), ∑ q : Fin n × Fin (N + 1), c p.1 * c q.1 * (meanOver k (P p.1 : Measure X) (P q.1 : Measure X) +
        if p = q then popSpread k (P p.1 : Measure X) else 0) =
        ∑ p : Fin n × Fin (N + 1), ((∑ q : Fin n × Fin (N + 1), c p.1 * c q.1 * M p.1 q.1) + c p.1 ^ 2 * V p.1) := by
      refine sum_congr rfl fun p _ => ?_
      simp only [mul_add, sum_add_distrib, mul_ite, mul_zero, sum_ite_eq, mem_univ, if_true, hM, hV, pow_two]
    rw [e0] at h0
    have e1 : ∀ i, ∑ q : Fin n × Fin (N + 1), c i * c q.1 * M i q.1 = ((N : ℝ) + 1) * ∑ j, c i * c j * M i j := fun i => by
      rw [Fintype.sum_prod_type]
      simp only [sum_const, card_univ, Fintype.card_fin, nsmul_eq_mul, ← mul_sum]
      push_cast
      ring
    simp only [e1] at h0
    rw [Fintype.sum_prod_type] at h0
    simp only [sum_const, card_univ, Fintype.card_fin, nsmul_eq_mul, ← mul_sum, sum_add_distrib] at h0
    push_cast at h0
    have e2 : ((N : ℝ) + 1) * (((N : ℝ) + 1) * (∑ i, ∑ j, c i * c j * M i j) + ∑ i, c i ^ 2 * V i)
        = ((N : ℝ) + 1) ^ 2 * ((∑ i, ∑ j, c i * c j * M i j) + 1 / ((N : ℝ) + 1) * ∑ i, c i ^ 2 * V i) := by
      field_simp
    rw [e2] at h0
    exact nonneg_of_mul_nonneg_right h0 (by positivity)
  have hlim : Tendsto (fun N : ℕ => (∑ i, ∑ j, c i * c j * M i j) + 1 / ((N : ℝ) + 1) * ∑ i, c i ^ 2 * V i) atTop
      (𝓝 ((∑ i, ∑ j, c i * c j * M i j) + 0 * ∑ i, c i ^ 2 * V i)) :=
    (tendsto_one_div_add_atTop_nhds_zero_nat.mul_const _).const_add _
  rw [zero_mul, add_zero] at hlim
  have := ge_of_tendsto' hlim key
  rwa [hM] at this

/-- The point mass. -/
noncomputable def pointMass (a : X) : ProbabilityMeasure X := ⟨Measure.dirac a, Measure.dirac.isProbabilityMeasure⟩

theorem coe_pointMass (a : X) : (pointMass a : Measure X) = Measure.dirac a := rfl

/-- Features of distributions, which restrict to features of points. -/
theorem exists_measure_feature (hk : IsPSD k) (hm : Measurable fun q : X × X => k q.1 q.2) (hR : ∀ x, k x x ≤ R) :
    ∃ (H : Type u) (_ : NormedAddCommGroup H) (_ : InnerProductSpace ℝ H) (Φ : ProbabilityMeasure X → H) (φ : X → H),
      (∀ P Q : ProbabilityMeasure X, meanOver k (P : Measure X) (Q : Measure X) = ⟪Φ P, Φ Q⟫) ∧ (∀ a b, k a b = ⟪φ a, φ b⟫) ∧
        ∀ (a : X) (P : ProbabilityMeasure X), ∫ z, k a z ∂(P : Measure X) = ⟪φ a, Φ P⟫ := by
  obtain ⟨H, i1, i2, Φ, hΦ⟩ := (hk.measure hm hR).exists_feature
  have hd : ∀ (a : X) (f : X → ℝ), Measurable f → ∫ x, f x ∂(Measure.dirac a) = f a := fun a f hf =>
    integral_dirac' _ _ hf.stronglyMeasurable
  have hms : ∀ a, Measurable fun y => k a y := fun a => hm.comp (measurable_const.prodMk measurable_id)
  have hmi : ∀ P : ProbabilityMeasure X, Measurable fun x => ∫ y, k x y ∂(P : Measure X) := fun P =>
    (hm.stronglyMeasurable.integral_prod_right (ν := (P : Measure X))).measurable
  refine ⟨H, i1, i2, Φ, fun a => Φ (pointMass a), hΦ, fun a b => ?_, fun a P => ?_⟩
  · rw [← hΦ, meanOver, coe_pointMass, hd a _ (hmi (pointMass b)), coe_pointMass]
    exact (hd b _ (hms a)).symm
  · rw [← hΦ, meanOver, coe_pointMass, hd a _ (hmi P)]

end Coreax.Spec
