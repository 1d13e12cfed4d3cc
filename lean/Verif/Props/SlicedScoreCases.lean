import Verif.Props.SlicedScore
import Verif.Spec.Draws
import Mathlib.Analysis.Calculus.MeanValue
import Mathlib.MeasureTheory.Integral.Pi
import Mathlib.Probability.Distributions.Gaussian.Real
import Mathlib.Analysis.SpecialFunctions.Integrals.Basic

/-!
# C51: every network is regular; the usual laws of random vectors; a worked density
-/

namespace Coreax

open MeasureTheory

variable {d : ℕ} {p : Vec d → ℝ} {ψ : Vec d → Vec d}

theorem softplus_lipschitz : LipschitzWith 1 softplus := by
  refine lipschitzWith_of_nnnorm_deriv_le (fun x => (softplus_hasDerivAt x).differentiableAt) fun x => ?_
  rw [(softplus_hasDerivAt x).deriv, ← NNReal.coe_le_coe, coe_nnnorm, Real.norm_eq_abs, abs_of_nonneg (by positivity), NNReal.coe_one,
    div_le_one (by positivity)]
  have := Real.exp_pos x
  linarith

theorem ScoreNet.lipschitz {a b : ℕ} (net : ScoreNet a b) : ∃ L, LipschitzWith L net.apply := by
  induction net with
  | @output a b l =>
    refine ⟨‖(ContinuousLinearMap.pi fun j => ∑ i, l.kernel i j • (ContinuousLinearMap.proj i : Vec a →L[ℝ] ℝ) : Vec a →L[ℝ] Vec b)‖₊, ?_⟩
    have hd : ∀ x, HasFDerivAt (ScoreNet.output l).apply (ContinuousLinearMap.pi fun j => ∑ i, l.kernel i j • (ContinuousLinearMap.proj i : Vec a →L[ℝ] ℝ)) x := by
      intro x
      rw [hasFDerivAt_pi]
      exact fun j => l.hasFDerivAt x j
    exact lipschitzWith_of_nnnorm_fderiv_le (𝕜 := ℝ) (fun x => (hd x).differentiableAt) fun x => by rw [(hd x).fderiv]
  | @hidden a h b l rest ih =>
    obtain ⟨L, hL⟩ := ih
    have hd : ∀ x, HasFDerivAt l.apply (ContinuousLinearMap.pi fun j => ∑ i, l.kernel i j • (ContinuousLinearMap.proj i : Vec a →L[ℝ] ℝ)) x := by
      intro x
      rw [hasFDerivAt_pi]
      exact fun j => l.hasFDerivAt x j
    have h1 : LipschitzWith ‖(ContinuousLinearMap.pi fun j => ∑ i, l.kernel i j • (ContinuousLinearMap.proj i : Vec a →L[ℝ] ℝ) : Vec a →L[ℝ] Vec h)‖₊ l.apply :=
      lipschitzWith_of_nnnorm_fderiv_le (𝕜 := ℝ) (fun x => (hd x).differentiableAt) fun x => by rw [(hd x).fderiv]
    have h2 : LipschitzWith 1 fun y : Vec h => (fun j => softplus (y j) : Vec h) := by
      refine LipschitzWith.of_edist_le fun y y' => ?_
      rw [edist_pi_le_iff]
      intro j
      have := softplus_lipschitz (y j) (y' j)
      rw [ENNReal.coe_one, one_mul] at this
      exact this.trans (edist_le_pi_edist y y' j)
    exact ⟨_, hL.comp (h2.comp h1)⟩

theorem norm_sq_le_sum (x : Vec d) : ‖x‖ ^ 2 ≤ ∑ k, x k ^ 2 := by
  rcases isEmpty_or_nonempty (Fin d) with h | h
  · have : x = 0 := Subsingleton.elim _ _
    simp [this]
  · obtain ⟨k, -, hk⟩ := Finset.exists_mem_eq_sup' (s := Finset.univ) Finset.univ_nonempty (fun k => ‖x k‖₊)
    have : ‖x‖ = ‖x k‖ := by
      rw [Pi.norm_def, ← coe_nnnorm, ← hk, Finset.sup'_eq_sup]
    rw [this, Real.norm_eq_abs, sq_abs]
    exact Finset.single_le_sum (f := fun k => x k ^ 2) (fun k _ => sq_nonneg _) (Finset.mem_univ k)

/-- **C51.** For data with finite second moments and a square integrable score, every network meets the conditions of the theorems on
the loss, whatever its layers and parameters. -/
theorem C51_network_regular (h : Spec.IsScore p ψ) (h0 : Integrable p) (h2 : ∀ k, Integrable fun x => p x * x k ^ 2)
    (hs : ∀ i, Integrable fun x => p x * ψ x i ^ 2) (net : ScoreNet d d) : Spec.Regular p ψ net.apply := by
  obtain ⟨L, hL⟩ := net.lipschitz
  have hdiff := (C51_network net).1
  have hpc : Continuous p := (IsScore.diff h).continuous
  have hb : ∀ x i, net.apply x i ^ 2 ≤ 2 * ‖net.apply 0‖ ^ 2 + 2 * (L : ℝ) ^ 2 * ∑ k, x k ^ 2 := by
    intro x i
    have h1 : |net.apply x i| ≤ ‖net.apply 0‖ + L * ‖x‖ := by
      have e1 : ‖net.apply x - net.apply 0‖ ≤ L * ‖x‖ := by
        have := hL.dist_le_mul x 0
        rwa [dist_eq_norm, dist_eq_norm, sub_zero] at this
      have e2 : ‖net.apply x i‖ ≤ ‖net.apply x‖ := norm_le_pi_norm _ i
      have e3 : ‖net.apply x‖ ≤ ‖net.apply x - net.apply 0‖ + ‖net.apply 0‖ := by
        have := norm_add_le (net.apply x - net.apply 0) (net.apply 0)
        rwa [sub_add_cancel] at this
      rw [← Real.norm_eq_abs]; linarith
    have h3 : net.apply x i ^ 2 ≤ (‖net.apply 0‖ + L * ‖x‖) ^ 2 := by
      rw [← sq_abs]; exact pow_le_pow_left₀ (abs_nonneg _) h1 2
    have h4 : (‖net.apply 0‖ + L * ‖x‖) ^ 2 ≤ 2 * ‖net.apply 0‖ ^ 2 + 2 * (L : ℝ) ^ 2 * ‖x‖ ^ 2 := by
      nlinarith [sq_nonneg (‖net.apply 0‖ - L * ‖x‖)]
    have h5 := mul_le_mul_of_nonneg_left (norm_sq_le_sum x) (by positivity : 0 ≤ 2 * (L : ℝ) ^ 2)
    linarith
  have isq : ∀ i, Integrable fun x => p x * net.apply x i ^ 2 := by
    intro i
    have hdom : Integrable fun x => (2 * ‖net.apply 0‖ ^ 2) * p x + (2 * (L : ℝ) ^ 2) * ∑ k, p x * x k ^ 2 :=
      (h0.const_mul _).add ((integrable_finsetSum _ fun k _ => h2 k).const_mul _)
    refine hdom.mono' (hpc.mul (((continuous_apply i).comp hdiff.continuous).pow 2)).measurable.aestronglyMeasurable ?_
    filter_upwards with x
    have hp := h.1 x
    rw [Real.norm_eq_abs, abs_of_nonneg (by positivity), ← Finset.mul_sum]
    have := mul_le_mul_of_nonneg_left (hb x i) hp
    nlinarith
  refine ⟨hdiff, fun i j => ?_, fun i => ?_, isq, hs⟩
  · refine (h0.mul_const (L * ‖(Pi.single j 1 : Vec d)‖)).mono' ?_ ?_
    · exact (hpc.measurable.mul ((measurable_pi_apply i).comp (measurable_fderiv_apply_const ℝ net.apply _))).aestronglyMeasurable
    · filter_upwards with x
      rw [norm_mul, Real.norm_eq_abs, abs_of_nonneg (h.1 x)]
      refine mul_le_mul_of_nonneg_left ?_ (h.1 x)
      exact (norm_le_pi_norm _ i).trans (((fderiv ℝ net.apply x).le_opNorm _).trans
        (mul_le_mul_of_nonneg_right (norm_fderiv_le_of_lipschitz ℝ hL) (norm_nonneg _)))
  · refine (h0.add (isq i)).mono' (hpc.mul ((continuous_apply i).comp hdiff.continuous)).measurable.aestronglyMeasurable ?_
    filter_upwards with x
    rw [Real.norm_eq_abs, abs_mul, abs_of_nonneg (h.1 x)]
    simp only [Pi.add_apply]
    have hp := h.1 x
    have h1 : |net.apply x i| ≤ 1 + net.apply x i ^ 2 := by
      rw [← sq_abs]; nlinarith [sq_nonneg (|net.apply x i| - 1), abs_nonneg (net.apply x i)]
    nlinarith [mul_le_mul_of_nonneg_left h1 hp]

/-! ### Laws of the random vectors -/

/-- Independent components of one law: the second moment on the diagonal, the squared mean elsewhere. -/
theorem secondMoments_iid (μ : Measure ℝ) [IsProbabilityMeasure μ] (h1 : Integrable (fun t => t) μ) (h2 : Integrable (fun t => t * t) μ) :
    Spec.SecondMoments (Measure.pi fun _ : Fin d => μ) fun i j => if i = j then ∫ t, t * t ∂μ else (∫ t, t ∂μ) ^ 2 := by
  intro i j
  let f : Fin d → ℝ → ℝ := fun k t => (if k = i then t else 1) * (if k = j then t else 1)
  have hf : (fun v : Vec d => v i * v j) = fun v => ∏ k, f k (v k) := by
    funext v
    simp only [f, Finset.prod_mul_distrib, Finset.prod_ite_eq', Finset.mem_univ, if_true]
  have hi : ∀ k, Integrable (f k) μ := by
    intro k
    simp only [f]
    by_cases a : k = i <;> by_cases b : k = j <;> simp only [a, b, if_true, if_false, mul_one] <;>
      first | exact h2 | exact h1 | exact integrable_const _ | skip
    all_goals (try split_ifs) <;> first | exact h2 | exact h1 | exact integrable_const _ | (simp only [one_mul, mul_one]; first | exact h1 | exact integrable_const _)
  rw [hf]
  refine ⟨Integrable.fintype_prod hi, ?_⟩
  rw [integral_fintype_prod_eq_prod]
  beta_reduce
  by_cases hij : i = j
  · subst hij
    rw [if_pos rfl, Finset.prod_eq_single i]
    · simp [f]
    · intro k _ hk; simp [f, hk]
    · intro hk; exact absurd (Finset.mem_univ i) hk
  · rw [if_neg hij, ← Finset.mul_prod_erase _ _ (Finset.mem_univ i), ← Finset.mul_prod_erase _ _ (Finset.mem_erase.2 ⟨Ne.symm hij, Finset.mem_univ j⟩),
      Finset.prod_eq_one]
    · simp [f, hij, Ne.symm hij, pow_two]
    · intro k hk
      simp only [Finset.mem_erase] at hk
      simp [f, hk.1, hk.2.1]

/-- The law of `jr.rademacher`, one component. -/
noncomputable def rademacherLaw : Measure ℝ := (2⁻¹ : ENNReal) • Measure.dirac 1 + (2⁻¹ : ENNReal) • Measure.dirac (-1)

instance : IsProbabilityMeasure rademacherLaw := ⟨by
  simp only [rademacherLaw, Measure.add_apply, Measure.smul_apply, measure_univ, smul_eq_mul, mul_one]
  exact ENNReal.inv_two_add_inv_two⟩

theorem integrable_rademacher (f : ℝ → ℝ) : Integrable f rademacherLaw :=
  Integrable.add_measure ((integrable_dirac (by simp)).smul_measure (by simp)) ((integrable_dirac (by simp)).smul_measure (by simp))

theorem integral_rademacher (f : ℝ → ℝ) : ∫ t, f t ∂rademacherLaw = (f 1 + f (-1)) / 2 := by
  unfold rademacherLaw
  rw [integral_add_measure ((integrable_dirac (by simp)).smul_measure (by simp)) ((integrable_dirac (by simp)).smul_measure (by simp)),
    integral_smul_measure, integral_smul_measure, integral_dirac, integral_dirac]
  simp
  ring

/-- **C51.** Second moments of the usual generators: the identity for `jr.normal` and `jr.rademacher`, so that both losses may be used; not
for `jr.uniform`, where all entries are at least a quarter. -/
theorem C51_generators (d : ℕ) :
    Spec.SecondMoments (Measure.pi fun _ : Fin d => ProbabilityTheory.gaussianReal 0 1) (fun i j => if i = j then 1 else 0) ∧
    Spec.SecondMoments (Measure.pi fun _ : Fin d => rademacherLaw) (fun i j => if i = j then 1 else 0) ∧
    Spec.SecondMoments (Spec.uniformDraws d) (fun i j => if i = j then 1 / 3 else 1 / 4) := by
  refine ⟨?_, ?_, ?_⟩
  · have hm := ProbabilityTheory.memLp_id_gaussianReal (μ := 0) (v := 1) 2
    have h1 : Integrable (fun t => t) (ProbabilityTheory.gaussianReal 0 1) := hm.integrable (by norm_num)
    have h2 : Integrable (fun t => t * t) (ProbabilityTheory.gaussianReal 0 1) := by
      have := hm.integrable_sq
      simpa [pow_two] using this
    have hv := ProbabilityTheory.variance_fun_id_gaussianReal (μ := 0) (v := 1)
    rw [ProbabilityTheory.variance_eq_integral (by fun_prop), ProbabilityTheory.integral_id_gaussianReal] at hv
    have key := secondMoments_iid (d := d) (ProbabilityTheory.gaussianReal 0 1) h1 h2
    rw [ProbabilityTheory.integral_id_gaussianReal] at key
    have h3 : ∫ t, t * t ∂(ProbabilityTheory.gaussianReal 0 1) = 1 := by simpa [pow_two] using hv
    rw [h3] at key
    simpa using key
  · have key := secondMoments_iid (d := d) rademacherLaw (integrable_rademacher _) (integrable_rademacher _)
    rw [integral_rademacher, integral_rademacher] at key
    simpa using key
  · have hI : Integrable (fun t : ℝ => t) (volume.restrict (Set.Icc (0 : ℝ) 1)) := continuous_id.continuousOn.integrableOn_compact isCompact_Icc
    have hI2 : Integrable (fun t : ℝ => t * t) (volume.restrict (Set.Icc (0 : ℝ) 1)) :=
      (continuous_id.mul continuous_id).continuousOn.integrableOn_compact isCompact_Icc
    haveI : IsProbabilityMeasure (volume.restrict (Set.Icc (0 : ℝ) 1)) := ⟨by simp⟩
    have key := secondMoments_iid (d := d) (volume.restrict (Set.Icc (0 : ℝ) 1)) hI hI2
    have e1 : ∫ t in Set.Icc (0 : ℝ) 1, t = 1 / 2 := by
      rw [integral_Icc_eq_integral_Ioc, ← intervalIntegral.integral_of_le zero_le_one, integral_id]; norm_num
    have e2 : ∫ t in Set.Icc (0 : ℝ) 1, t * t = 1 / 3 := by
      rw [integral_Icc_eq_integral_Ioc, ← intervalIntegral.integral_of_le zero_le_one]
      have := integral_pow (a := (0 : ℝ)) (b := 1) 2
      simp only [pow_two] at this
      rw [this]; norm_num
    rw [e1, e2] at key
    have hq : (1 / 2 : ℝ) ^ 2 = 1 / 4 := by norm_num
    rw [hq] at key
    exact key

instance uniformDraws_probability (d : ℕ) : IsProbabilityMeasure (Spec.uniformDraws d) := by
  unfold Spec.uniformDraws
  haveI : IsProbabilityMeasure (volume.restrict (Set.Icc (0 : ℝ) 1)) := ⟨by simp⟩
  infer_instance

/-- **C51**, the consequence: in one dimension, with `jr.uniform` as generator and the analytic loss, a third of the score is better than
any network, and the score itself is worse by two ninths of the mean squared score. -/
theorem C51_uniform_third {p : Vec 1 → ℝ} {ψ s : Vec 1 → Vec 1} (h : Spec.IsScore p ψ) (hψ : Spec.Regular p ψ ψ) (r : Spec.Regular p ψ s) :
    expectedLoss true (Spec.uniformDraws 1) p (fun x i => ψ x i / 3) ≤ expectedLoss true (Spec.uniformDraws 1) p s ∧
    expectedLoss true (Spec.uniformDraws 1) p ψ - expectedLoss true (Spec.uniformDraws 1) p (fun x i => ψ x i / 3) = 2 / 9 * ∫ x, p x * ψ x 0 ^ 2 := by
  have key := C51_analytic_minimiser h hψ r (Spec.uniformDraws 1) _ (C51_generators 1).2.2
  have hm : (fun x => Spec.mulVec (fun i j : Fin 1 => if i = j then (1 / 3 : ℝ) else 1 / 4) (ψ x)) = fun x i => ψ x i / 3 := by
    funext x i
    simp only [Spec.mulVec, Fin.sum_univ_one, Fin.isValue, Subsingleton.elim i 0, if_true]
    ring
  have hm' : ∀ x i, Spec.mulVec (fun i j : Fin 1 => if i = j then (1 / 3 : ℝ) else 1 / 4) (ψ x) i = ψ x i / 3 := fun x i => congrFun (congrFun hm x) i
  rw [hm] at key
  refine ⟨key.1, key.2.trans ?_⟩
  rw [← integral_const_mul, ← integral_const_mul]
  congr 1
  funext x
  simp only [Spec.sqLen, Fin.sum_univ_one, hm']
  ring

/-! ### A worked density: the standard normal (not normalised) in any dimension -/

/-- The density, up to a factor. -/
noncomputable def normalDensity (x : Vec d) : ℝ := ∏ k, Real.exp (-(1 / 2) * x k ^ 2)

theorem normalDensity_eq (x : Vec d) : normalDensity x = Real.exp (-(1 / 2) * ∑ k, x k ^ 2) := by
  unfold normalDensity
  rw [← Real.exp_sum, Finset.mul_sum]

theorem normalDensity_score : Spec.IsScore (normalDensity (d := d)) fun x i => - x i := by
  refine ⟨fun x => by rw [normalDensity_eq]; positivity, fun x => ?_⟩
  unfold Spec.IsGrad
  have h1 : HasFDerivAt (fun y : Vec d => -(1 / 2) * ∑ k, y k ^ 2) (∑ k, (- x k) • (ContinuousLinearMap.proj k : Vec d →L[ℝ] ℝ)) x := by
    have : ∀ k, HasFDerivAt (fun y : Vec d => y k ^ 2) ((2 * x k) • (ContinuousLinearMap.proj k : Vec d →L[ℝ] ℝ)) x := fun k => by
      have h := ((ContinuousLinearMap.proj (R := ℝ) (φ := fun _ : Fin d => ℝ) k).hasFDerivAt (x := x)).pow 2
      simpa using h
    have h2 := (HasFDerivAt.fun_sum (u := Finset.univ) fun k _ => this k).const_mul (-(1 / 2))
    refine h2.congr_fderiv ?_
    rw [Finset.smul_sum]
    refine Finset.sum_congr rfl fun k _ => ?_
    rw [smul_smul]
    congr 1
    ring
  have h3 := h1.exp
  have he : (normalDensity (d := d)) = fun y => Real.exp (-(1 / 2) * ∑ k, y k ^ 2) := funext normalDensity_eq
  rw [he]
  refine h3.congr_fderiv ?_
  unfold Spec.gradMap
  rw [Finset.smul_sum]
  refine Finset.sum_congr rfl fun k _ => ?_
  rw [smul_smul]

theorem normalDensity_moment (i : Fin d) (n : ℕ) : Integrable fun x : Vec d => normalDensity x * x i ^ n := by
  have : (fun x : Vec d => normalDensity x * x i ^ n) = fun x => ∏ k, (fun k t => Real.exp (-(1 / 2) * t ^ 2) * (if k = i then t ^ n else 1)) k (x k) := by
    funext x
    simp only [Finset.prod_mul_distrib, Finset.prod_ite_eq', Finset.mem_univ, if_true, normalDensity]
  rw [this]
  refine Integrable.fintype_prod (f := fun k t => Real.exp (-(1 / 2) * t ^ 2) * (if k = i then t ^ n else 1)) fun k => ?_
  by_cases hk : k = i
  · simp only [hk, if_true]
    have := integrable_rpow_mul_exp_neg_mul_sq (b := 1 / 2) (by norm_num) (s := n) (by have : (0 : ℝ) ≤ n := n.cast_nonneg; linarith)
    refine this.congr (Filter.Eventually.of_forall fun t => ?_)
    simp only [Real.rpow_natCast]
    ring
  · simp only [hk, if_false, mul_one]
    exact integrable_exp_neg_mul_sq (by norm_num)

theorem normalDensity_integrable : Integrable (normalDensity (d := d)) :=
  Integrable.fintype_prod (f := fun (_ : Fin d) t => Real.exp (-(1 / 2) * t ^ 2)) fun _ => integrable_exp_neg_mul_sq (by norm_num)

theorem normalDensity_regular : Spec.Regular (normalDensity (d := d)) (fun x i => - x i) (fun x i => - x i) := by
  have hd : ∀ x : Vec d, HasFDerivAt (fun (x : Vec d) i => - x i) (-(ContinuousLinearMap.id ℝ (Vec d))) x := fun x => (hasFDerivAt_id x).neg
  refine ⟨fun x => (hd x).differentiableAt, fun i j => ?_, fun i => ?_, fun i => ?_, fun i => ?_⟩
  · have : (fun x : Vec d => normalDensity x * fderiv ℝ (fun (x : Vec d) i => - x i) x (Pi.single j 1) i) =
        fun x => normalDensity x * (-(Pi.single j 1 : Vec d) i) := by
      funext x; rw [(hd x).fderiv]; rfl
    rw [this]
    exact normalDensity_integrable.mul_const _
  · have := (normalDensity_moment i 1).neg
    refine this.congr (Filter.Eventually.of_forall fun x => ?_)
    simp
  · simpa using normalDensity_moment i 2
  · simpa using normalDensity_moment i 2

/-- All hypotheses are met by the standard normal in three dimensions, a network with two hidden layers and normal random vectors. -/
example (l1 : Dense 3 5) (l2 : Dense 5 4) (l3 : Dense 4 3) :
    expectedLoss (d := 3) false (Measure.pi fun _ => ProbabilityTheory.gaussianReal 0 1) normalDensity (fun x i => - x i) ≤
      expectedLoss (d := 3) false (Measure.pi fun _ => ProbabilityTheory.gaussianReal 0 1) normalDensity (ScoreNet.hidden l1 (.hidden l2 (.output l3))).apply :=
  (C51_standard_minimiser normalDensity_score normalDensity_regular
    (C51_network_regular normalDensity_score normalDensity_integrable (fun k => normalDensity_moment k 2) (fun i => normalDensity_regular.int_sq i) _)
    _ _ (C51_generators 3).1).1

/-- With uniform random vectors and the analytic loss the score of the standard normal on the line loses to a third of it. -/
example : expectedLoss true (Spec.uniformDraws 1) normalDensity (fun x i => - x i / 3) < expectedLoss true (Spec.uniformDraws 1) normalDensity (fun x i => - x i) := by
  have key := (C51_uniform_third normalDensity_score normalDensity_regular normalDensity_regular).2
  have hpos : 0 < ∫ x : Vec 1, normalDensity x * (- x 0) ^ 2 := by
    have hc : Continuous fun x : Vec 1 => normalDensity x * (- x 0) ^ 2 := by
      have := (IsScore.diff (normalDensity_score (d := 1))).continuous
      exact this.mul (((continuous_apply 0).neg).pow 2)
    refine integral_pos_of_integrable_nonneg_nonzero (x := fun _ => 1) hc (normalDensity_regular.int_sq 0) (fun x => ?_) ?_
    · exact mul_nonneg (normalDensity_score.1 x) (sq_nonneg _)
    · rw [normalDensity_eq]; simp
  linarith

open Spec in
/-- The identities of both losses for the standard normal, a network with two hidden layers and the three laws of the random vectors. -/
example (l1 : Dense 3 5) (l2 : Dense 5 4) (l3 : Dense 4 3) :=
  C51_standard_loss normalDensity_score (C51_network_regular normalDensity_score normalDensity_integrable (fun k => normalDensity_moment k 2)
    (fun i => normalDensity_regular.int_sq i) (ScoreNet.hidden l1 (.hidden l2 (.output l3)))) _ _ (C51_generators 3).2.2

example (net : ScoreNet 3 3) :=
  C51_analytic_loss normalDensity_score (C51_network_regular normalDensity_score normalDensity_integrable (fun k => normalDensity_moment k 2)
    (fun i => normalDensity_regular.int_sq i) net) (Measure.pi fun _ => ProbabilityTheory.gaussianReal 0 1) _ (C51_generators 3).1

example (net : ScoreNet 3 3) (x : Vec 3) := C51_analytic_same (Measure.pi fun _ => ProbabilityTheory.gaussianReal 0 1) (C51_generators 3).1 net.apply x

example (net : ScoreNet 3 3) :=
  C51_analytic_minimiser normalDensity_score normalDensity_regular (C51_network_regular normalDensity_score normalDensity_integrable (fun k => normalDensity_moment k 2)
    (fun i => normalDensity_regular.int_sq i) net) (Measure.pi fun _ => ProbabilityTheory.gaussianReal 0 1) _ (C51_generators 3).1

end Coreax
