import Verif.Props.ScoreTraining
import Mathlib.MeasureTheory.Integral.Bochner.ContinuousLinearMap

/-!
# C52: what training with noise conditioning estimates
-/

namespace Coreax

open MeasureTheory

variable {d : ℕ} {p : Vec d → ℝ} {ψ : Vec d → Vec d}

/-- The mixture of the data, each copy moved by a vector `a k`, with weights `w k`. -/
def Spec.mixture {ι : Type} [Fintype ι] (w : ι → ℝ) (a : ι → Vec d) (p : Vec d → ℝ) (y : Vec d) : ℝ := ∑ k, w k * p (y - a k)

/-- The score of the mixture: the mean of the moved scores, with the share of each copy at the point. -/
noncomputable def Spec.mixtureScore {ι : Type} [Fintype ι] (w : ι → ℝ) (a : ι → Vec d) (p : Vec d → ℝ) (ψ : Vec d → Vec d) (y : Vec d) : Vec d :=
  fun i => (∑ k, w k * p (y - a k) * ψ (y - a k) i) / Spec.mixture w a p y

theorem IsScore.translate (h : Spec.IsScore p ψ) (a : Vec d) : Spec.IsScore (fun y => p (y - a)) (fun y => ψ (y - a)) := by
  refine ⟨fun x => h.1 _, fun x => ?_⟩
  have h1 := h.2 (x - a)
  unfold Spec.IsGrad at h1 ⊢
  have h2 : HasFDerivAt (fun y : Vec d => y - a) (ContinuousLinearMap.id ℝ (Vec d)) x := (hasFDerivAt_id x).sub_const a
  exact (h1.comp x h2).congr_fderiv (by ext v; rfl)

theorem gradMap_sum {ι : Type} (t : Finset ι) (w : ι → ℝ) (g : ι → Vec d) :
    ∑ k ∈ t, w k • Spec.gradMap (g k) = Spec.gradMap fun i => ∑ k ∈ t, w k * g k i := by
  ext1 v
  unfold Spec.gradMap
  simp only [sum_apply, smul_apply, smul_eq_mul, ContinuousLinearMap.proj_apply, Finset.mul_sum, Finset.sum_mul]
  rw [Finset.sum_comm]
  exact Finset.sum_congr rfl fun i _ => Finset.sum_congr rfl fun k _ => by ring

/-- C52: the score of the mixture. -/
theorem C52_mixture_score {ι : Type} [Fintype ι] (h : Spec.IsScore p ψ) (w : ι → ℝ) (hw : ∀ k, 0 ≤ w k) (a : ι → Vec d) :
    Spec.IsScore (Spec.mixture w a p) (Spec.mixtureScore w a p ψ) := by
  have hnn : ∀ x k, 0 ≤ w k * p (x - a k) := fun x k => mul_nonneg (hw k) (h.1 _)
  refine ⟨fun x => Finset.sum_nonneg fun k _ => hnn x k, fun x => ?_⟩
  have h1 := fun k => ((IsScore.translate h (a k)).2 x)
  unfold Spec.IsGrad at h1 ⊢
  have h2 := HasFDerivAt.fun_sum (u := Finset.univ) fun k _ => (h1 k).const_mul (w k)
  refine h2.congr_fderiv ?_
  rw [gradMap_sum]
  congr 1
  funext i
  unfold Spec.mixtureScore
  by_cases hq : Spec.mixture w a p x = 0
  · rw [hq, zero_mul]
    refine Finset.sum_eq_zero fun k _ => ?_
    have := (Finset.sum_eq_zero_iff_of_nonneg fun k _ => hnn x k).1 hq k (Finset.mem_univ k)
    rw [← mul_assoc, this, zero_mul]
  · rw [mul_div_cancel₀ _ hq]
    exact Finset.sum_congr rfl fun k _ => by ring

section Expectation

variable {n m : ℕ} (P ν : Measure (Vec d)) [IsProbabilityMeasure P] [IsProbabilityMeasure ν]

/-- The law of the data with their random vectors: `n` independent points, each with `m` independent random vectors. -/
noncomputable def Spec.dataLaw (n m : ℕ) : Measure (Fin n → Vec d × (Fin m → Vec d)) :=
  Measure.pi fun _ => P.prod (Measure.pi fun _ => ν)

theorem dataLaw_coordinate (j : Fin n) (l : Fin m) :
    MeasurePreserving (fun data : Fin n → Vec d × (Fin m → Vec d) => ((data j).1, (data j).2 l)) (Spec.dataLaw P ν n m) (P.prod ν) := by
  have h1 : MeasurePreserving (Function.eval j) (Spec.dataLaw P ν n m) (P.prod (Measure.pi fun _ : Fin m => ν)) :=
    measurePreserving_eval (μ := fun _ : Fin n => P.prod (Measure.pi fun _ : Fin m => ν)) j
  have h2 : MeasurePreserving (Prod.map id (Function.eval l)) (P.prod (Measure.pi fun _ : Fin m => ν)) (P.prod ν) :=
    (MeasurePreserving.id P).prod (measurePreserving_eval (μ := fun _ : Fin m => ν) l)
  exact h2.comp h1

theorem integral_dataLaw {F : Vec d × Vec d → ℝ} (hF : Integrable F (P.prod ν)) (j : Fin n) (l : Fin m) :
    Integrable (fun data : Fin n → Vec d × (Fin m → Vec d) => F ((data j).1, (data j).2 l)) (Spec.dataLaw P ν n m) ∧
    ∫ data, F ((data j).1, (data j).2 l) ∂(Spec.dataLaw P ν n m) = ∫ x, ∫ v, F (x, v) ∂ν ∂P := by
  have hmp := dataLaw_coordinate (n := n) (m := m) P ν j l
  refine ⟨hmp.integrable_comp_of_integrable hF, ?_⟩
  rw [← integral_prod _ hF, ← hmp.map_eq, integral_map hmp.measurable.aemeasurable]
  rw [hmp.map_eq]
  exact hF.aestronglyMeasurable

theorem expected_batch {b : ℕ} (hb : 0 < b) (hm : 0 < m) (F : Fin b → Vec d × Vec d → ℝ) (hF : ∀ r, Integrable (F r) (P.prod ν)) (idx : Fin b → Fin n) :
    Integrable (fun data : Fin n → Vec d × (Fin m → Vec d) => (∑ r, ∑ l, F r ((data (idx r)).1, (data (idx r)).2 l)) / ((b : ℝ) * m)) (Spec.dataLaw P ν n m) ∧
    ∫ data, (∑ r, ∑ l, F r ((data (idx r)).1, (data (idx r)).2 l)) / ((b : ℝ) * m) ∂(Spec.dataLaw P ν n m) = (∑ r, ∫ x, ∫ v, F r (x, v) ∂ν ∂P) / b := by
  have h1 := fun r l => integral_dataLaw (n := n) (m := m) P ν (hF r) (idx r) l
  refine ⟨(integrable_finsetSum _ fun r _ => integrable_finsetSum _ fun l _ => (h1 r l).1).div_const _, ?_⟩
  rw [integral_div, integral_finsetSum _ fun r _ => integrable_finsetSum _ fun l _ => (h1 r l).1]
  have h2 : ∀ r, ∫ data, ∑ l : Fin m, F r ((data (idx r)).1, (data (idx r)).2 l) ∂(Spec.dataLaw P ν n m) = m * ∫ x, ∫ v, F r (x, v) ∂ν ∂P := by
    intro r
    rw [integral_finsetSum _ fun l _ => (h1 r l).1]
    simp only [(h1 r _).2, Finset.sum_const, Finset.card_univ, Fintype.card_fin, nsmul_eq_mul]
  simp only [h2]
  rw [← Finset.mul_sum]
  have : (m : ℝ) ≠ 0 := by positivity
  have : (b : ℝ) ≠ 0 := by positivity
  field_simp

/-- C52: the expectation, over independent data and random vectors, of the loss of a step on the batch of rows `idx`; it does not depend
on `idx`. With noise conditioning row `r` counts with the data moved by the level times `z r`. -/
theorem C52_expected_step (c : SsmConfig) (jvp : Vec d → Vec d → Vec d × Vec d) {b : ℕ} (hb : 0 < b) (hm : 0 < m) (z : Fin b → Vec d)
    (hint : ∀ a : Vec d, Integrable (fun xv : Vec d × Vec d => pointLoss c.analytic jvp (fun k => xv.1 k + a k) xv.2) (P.prod ν)) (idx : Fin b → Fin n) :
    ∃ L : (Fin n → Vec d × (Fin m → Vec d)) → ℝ,
      (∀ data, ssmLoss c jvp z (fun r => (data (idx r)).1) (fun r => (data (idx r)).2) = Ext.fin (L data)) ∧ Integrable L (Spec.dataLaw P ν n m) ∧
      ∫ data, L data ∂(Spec.dataLaw P ν n m) = if c.noise then
        ∑ i : Fin c.numNoise, (c.sigma * c.gamma ^ (i : ℕ)) ^ 2 *
          ((∑ r, ∫ x, ∫ v, pointLoss c.analytic jvp (fun k => x k + c.sigma * c.gamma ^ (i : ℕ) * z r k) v ∂ν ∂P) / b)
        else ∫ x, ∫ v, pointLoss c.analytic jvp x v ∂ν ∂P := by
  refine ⟨_, fun data => C52_loss_value c jvp hb hm z _ _, ?_⟩
  by_cases h : c.noise = true
  · simp only [h, if_true, Spec.batchMean]
    have key := fun i : Fin c.numNoise => expected_batch (n := n) (m := m) P ν hb hm
      (fun r xv => pointLoss c.analytic jvp (fun k => xv.1 k + c.sigma * c.gamma ^ (i : ℕ) * z r k) xv.2)
      (fun r => hint fun k => c.sigma * c.gamma ^ (i : ℕ) * z r k) idx
    refine ⟨integrable_finsetSum _ fun i _ => (key i).1.const_mul _, ?_⟩
    rw [integral_finsetSum _ fun i _ => (key i).1.const_mul _]
    refine Finset.sum_congr rfl fun i _ => ?_
    rw [integral_const_mul]
    congr 1
    exact (key i).2
  · simp only [h, if_false, Bool.false_eq_true]
    have key := expected_batch (n := n) (m := m) P ν hb hm (fun _ xv => pointLoss c.analytic jvp xv.1 xv.2)
      (fun r => by simpa using hint 0) idx
    refine ⟨key.1, key.2.trans ?_⟩
    rw [Finset.sum_const, Finset.card_univ, Fintype.card_fin, nsmul_eq_mul]
    have : (b : ℝ) ≠ 0 := by positivity
    field_simp

end Expectation

/-! ### Data with a density -/

/-- The law with density `p`. -/
noncomputable def Spec.lawOf (p : Vec d → ℝ) : Measure (Vec d) := volume.withDensity fun x => ENNReal.ofReal (p x)

theorem lawOf_probability (hp : ∀ x, 0 ≤ p x) (hi : Integrable p) (h1 : ∫ x, p x = 1) : IsProbabilityMeasure (Spec.lawOf p) := by
  refine ⟨?_⟩
  unfold Spec.lawOf
  rw [withDensity_apply _ MeasurableSet.univ, Measure.restrict_univ, ← ofReal_integral_eq_lintegral_ofReal hi (Filter.Eventually.of_forall hp), h1]
  simp

theorem integral_lawOf (hp : ∀ x, 0 ≤ p x) (hc : Measurable p) (g : Vec d → ℝ) : ∫ x, g x ∂(Spec.lawOf p) = ∫ x, p x * g x := by
  unfold Spec.lawOf
  rw [integral_withDensity_eq_integral_toReal_smul hc.ennreal_ofReal (Filter.Eventually.of_forall fun x => ENNReal.ofReal_lt_top)]
  simp only [ENNReal.toReal_ofReal (hp _), smul_eq_mul]

theorem integrable_lawOf (hp : ∀ x, 0 ≤ p x) (hc : Measurable p) (g : Vec d → ℝ) : Integrable g (Spec.lawOf p) ↔ Integrable fun x => p x * g x := by
  unfold Spec.lawOf
  rw [integrable_withDensity_iff_integrable_smul' hc.ennreal_ofReal (Filter.Eventually.of_forall fun x => ENNReal.ofReal_lt_top)]
  simp only [ENNReal.toReal_ofReal (hp _), smul_eq_mul]

/-- The loss of one point is integrable when the field is regular for the moved density. -/
theorem pointLoss_integrable (h : Spec.IsScore p ψ) (analytic : Bool) (s : Vec d → Vec d) (a : Vec d)
    (r : Spec.Regular (fun y => p (y - a)) (fun y => ψ (y - a)) s) [IsProbabilityMeasure (Spec.lawOf p)] (ν : Measure (Vec d)) [IsProbabilityMeasure ν]
    (C : Fin d → Fin d → ℝ) (hν : Spec.SecondMoments ν C) :
    Integrable (fun xv : Vec d × Vec d => pointLoss analytic (fun x v => (s x, fderiv ℝ s x v)) (fun k => xv.1 k + a k) xv.2) ((Spec.lawOf p).prod ν) := by
  have ht := IsScore.translate h a
  have hpm : Measurable p := (IsScore.diff h).continuous.measurable
  have back : ∀ g : Vec d → ℝ, (Integrable fun y => p (y - a) * g y) → Integrable (fun x => g (fun k => x k + a k)) (Spec.lawOf p) := by
    intro g hg
    rw [integrable_lawOf h.1 hpm]
    have := hg.comp_add_right a
    refine this.congr (Filter.Eventually.of_forall fun x => ?_)
    simp only [add_sub_cancel_right]
    rfl
  have iJ : ∀ i j, Integrable (fun x : Vec d => fderiv ℝ s (fun k => x k + a k) (Pi.single j 1) i) (Spec.lawOf p) := fun i j => back _ (r.int_deriv i j)
  have iS : ∀ i j, Integrable (fun x : Vec d => s (fun k => x k + a k) i * s (fun k => x k + a k) j) (Spec.lawOf p) := fun i j => by
    refine back (fun y => s y i * s y j) ((Regular.int_mul ht r i j).congr (Filter.Eventually.of_forall fun x => ?_))
    simp only [mul_assoc]
  have i1 : ∀ i j, Integrable (fun xv : Vec d × Vec d => fderiv ℝ s (fun k => xv.1 k + a k) (Pi.single j 1) i * (xv.2 i * xv.2 j)) ((Spec.lawOf p).prod ν) :=
    fun i j => (iJ i j).mul_prod (hν i j).1
  have i2 : ∀ i j, Integrable (fun xv : Vec d × Vec d => s (fun k => xv.1 k + a k) i * s (fun k => xv.1 k + a k) j * (xv.2 i * xv.2 j)) ((Spec.lawOf p).prod ν) :=
    fun i j => (iS i j).mul_prod (hν i j).1
  have i3 : ∀ i, Integrable (fun xv : Vec d × Vec d => s (fun k => xv.1 k + a k) i * s (fun k => xv.1 k + a k) i * 1) ((Spec.lawOf p).prod ν) :=
    fun i => (iS i i).mul_prod (integrable_const 1)
  cases analytic with
  | false =>
    have he : (fun xv : Vec d × Vec d => pointLoss false (fun x v => (s x, fderiv ℝ s x v)) (fun k => xv.1 k + a k) xv.2) = fun xv =>
        (∑ i, ∑ j, fderiv ℝ s (fun k => xv.1 k + a k) (Pi.single j 1) i * (xv.2 i * xv.2 j)) +
        1 / 2 * ∑ i, ∑ j, s (fun k => xv.1 k + a k) i * s (fun k => xv.1 k + a k) j * (xv.2 i * xv.2 j) := by
      funext xv
      simp only [pointLoss, lossElement, Bool.false_eq_true, if_false, vdot, Spec.fderiv_apply_eq s _ xv.2]
      congr 1
      · refine Finset.sum_congr rfl fun i _ => ?_
        rw [Finset.mul_sum]
        exact Finset.sum_congr rfl fun j _ => by ring
      · rw [pow_two, Finset.sum_mul_sum]
        congr 1
        exact Finset.sum_congr rfl fun i _ => Finset.sum_congr rfl fun j _ => by ring
    rw [he]
    exact (integrable_finsetSum _ fun i _ => integrable_finsetSum _ fun j _ => i1 i j).add
      ((integrable_finsetSum _ fun i _ => integrable_finsetSum _ fun j _ => i2 i j).const_mul _)
  | true =>
    have he : (fun xv : Vec d × Vec d => pointLoss true (fun x v => (s x, fderiv ℝ s x v)) (fun k => xv.1 k + a k) xv.2) = fun xv =>
        (∑ i, ∑ j, fderiv ℝ s (fun k => xv.1 k + a k) (Pi.single j 1) i * (xv.2 i * xv.2 j)) +
        1 / 2 * ∑ i, s (fun k => xv.1 k + a k) i * s (fun k => xv.1 k + a k) i * 1 := by
      funext xv
      simp only [pointLoss, lossElement, if_true, vdot, Spec.fderiv_apply_eq s _ xv.2, mul_one]
      congr 1
      refine Finset.sum_congr rfl fun i _ => ?_
      rw [Finset.mul_sum]
      exact Finset.sum_congr rfl fun j _ => by ring
    rw [he]
    exact (integrable_finsetSum _ fun i _ => integrable_finsetSum _ fun j _ => i1 i j).add ((integrable_finsetSum _ fun i _ => i3 i).const_mul _)

theorem normSq_translate_integrable (hp : ∀ x, 0 ≤ p x) (h0 : Integrable p) (h2 : ∀ k, Integrable fun x => p x * x k ^ 2) (a : Vec d) (k : Fin d) (hm : Measurable p) :
    Integrable fun y => p (y - a) * y k ^ 2 := by
  have h3 : Integrable fun x : Vec d => p x * (x k + a k) ^ 2 := by
    refine (((h2 k).const_mul 2).add (h0.const_mul (2 * a k ^ 2))).mono' ?_ ?_
    · exact (hm.mul (((measurable_pi_apply k).add_const _).pow_const 2)).aestronglyMeasurable
    · filter_upwards with x
      rw [Real.norm_eq_abs, abs_of_nonneg (mul_nonneg (hp x) (sq_nonneg _))]
      simp only [Pi.add_apply]
      nlinarith [mul_nonneg (hp x) (sq_nonneg (x k - a k))]
  have := h3.comp_sub_right a
  refine this.congr (Filter.Eventually.of_forall fun x => ?_)
  simp

/-- **C52.** Training a network with noise conditioning on data with density `p`: for every batch the expectation of the loss of a step
is the expected sliced score matching loss, without noise, for the mixture of the copies of `p` moved by `level i * z r`, with
weights `level i ^ 2 / b`. The vectors `z r` are the constants that `jr.key(0)` gives. By `C51_standard_minimiser` the field that
training estimates is the score of this mixture: not the score of the data, nor that of the data with random noise added. -/
theorem C52_noise_mixture (h : Spec.IsScore p ψ) (h0 : Integrable p) (h1 : ∫ x, p x = 1) (h2 : ∀ k, Integrable fun x => p x * x k ^ 2)
    (hs : ∀ i, Integrable fun x => p x * ψ x i ^ 2) (ν : Measure (Vec d)) [IsProbabilityMeasure ν] (C : Fin d → Fin d → ℝ) (hν : Spec.SecondMoments ν C)
    (c : SsmConfig) (hc : c.noise = true) (net : ScoreNet d d) {n b m : ℕ} (hb : 0 < b) (hm : 0 < m) (z : Fin b → Vec d) (idx : Fin b → Fin n) :
    (∃ L : (Fin n → Vec d × (Fin m → Vec d)) → ℝ,
      (∀ data, ssmLoss c net.jvp z (fun r => (data (idx r)).1) (fun r => (data (idx r)).2) = Ext.fin (L data)) ∧
      Integrable L (Spec.dataLaw (Spec.lawOf p) ν n m) ∧
      ∫ data, L data ∂(Spec.dataLaw (Spec.lawOf p) ν n m) = expectedLoss c.analytic ν
        (Spec.mixture (fun ir : Fin c.numNoise × Fin b => (c.sigma * c.gamma ^ (ir.1 : ℕ)) ^ 2 / b)
          (fun ir k => c.sigma * c.gamma ^ (ir.1 : ℕ) * z ir.2 k) p) net.apply) ∧
    Spec.IsScore (Spec.mixture (fun ir : Fin c.numNoise × Fin b => (c.sigma * c.gamma ^ (ir.1 : ℕ)) ^ 2 / b)
        (fun ir k => c.sigma * c.gamma ^ (ir.1 : ℕ) * z ir.2 k) p)
      (Spec.mixtureScore (fun ir : Fin c.numNoise × Fin b => (c.sigma * c.gamma ^ (ir.1 : ℕ)) ^ 2 / b)
        (fun ir k => c.sigma * c.gamma ^ (ir.1 : ℕ) * z ir.2 k) p ψ) := by
  refine ⟨?_, C52_mixture_score h _ (fun _ => by positivity) _⟩
  have hpm : Measurable p := (IsScore.diff h).continuous.measurable
  haveI := lawOf_probability h.1 h0 h1
  have hjvp : net.jvp = fun x v => (net.apply x, fderiv ℝ net.apply x v) := by
    funext x v
    exact (C51_network net).2 x v
  have hreg : ∀ a : Vec d, Spec.Regular (fun y => p (y - a)) (fun y => ψ (y - a)) net.apply := fun a =>
    C51_network_regular (IsScore.translate h a) (h0.comp_sub_right a) (fun k => normSq_translate_integrable h.1 h0 h2 a k hpm)
      (fun i => (hs i).comp_sub_right a) net
  have hint : ∀ a : Vec d, Integrable (fun xv : Vec d × Vec d => pointLoss c.analytic net.jvp (fun k => xv.1 k + a k) xv.2) ((Spec.lawOf p).prod ν) := by
    intro a
    rw [hjvp]
    exact pointLoss_integrable h c.analytic net.apply a (hreg a) ν C hν
  obtain ⟨L, hL, hi, hE⟩ := C52_expected_step (n := n) (m := m) (Spec.lawOf p) ν c net.jvp hb hm z hint idx
  refine ⟨L, hL, hi, hE.trans ?_⟩
  rw [if_pos hc]
  -- one moved copy
  have hone : ∀ a : Vec d, (Integrable fun y => p (y - a) * ∫ v, lossElement c.analytic (net.apply y, fderiv ℝ net.apply y v) v ∂ν) ∧
      ∫ x, ∫ v, pointLoss c.analytic net.jvp (fun k => x k + a k) v ∂ν ∂(Spec.lawOf p) =
        ∫ y, p (y - a) * ∫ v, lossElement c.analytic (net.apply y, fderiv ℝ net.apply y v) v ∂ν := by
    intro a
    have e1 := (hint a).integral_prod_left
    rw [integrable_lawOf h.1 hpm] at e1
    have e2 := e1.comp_sub_right a
    have e3 : ∀ y : Vec d, (fun k => (y - a) k + a k) = y := fun y => by funext k; simp
    simp only [e3] at e2
    simp only [hjvp, pointLoss] at e2 ⊢
    refine ⟨e2, ?_⟩
    rw [integral_lawOf h.1 hpm]
    rw [← integral_sub_right_eq_self (fun x => p x * ∫ v, lossElement c.analytic (net.apply fun k => x k + a k, fderiv ℝ net.apply (fun k => x k + a k) v) v ∂ν) a]
    simp only [e3]
  have hR : expectedLoss c.analytic ν (Spec.mixture (fun ir : Fin c.numNoise × Fin b => (c.sigma * c.gamma ^ (ir.1 : ℕ)) ^ 2 / b)
        (fun ir k => c.sigma * c.gamma ^ (ir.1 : ℕ) * z ir.2 k) p) net.apply =
      ∑ ir : Fin c.numNoise × Fin b, (c.sigma * c.gamma ^ (ir.1 : ℕ)) ^ 2 / b *
        ∫ y, p (y - fun k => c.sigma * c.gamma ^ (ir.1 : ℕ) * z ir.2 k) * ∫ v, lossElement c.analytic (net.apply y, fderiv ℝ net.apply y v) v ∂ν := by
    unfold expectedLoss Spec.mixture
    simp only [Finset.sum_mul, mul_assoc]
    have hI : ∀ ir : Fin c.numNoise × Fin b, Integrable fun y => (c.sigma * c.gamma ^ (ir.1 : ℕ)) ^ 2 / b *
        (p (y - fun k => c.sigma * (c.gamma ^ (ir.1 : ℕ) * z ir.2 k)) * ∫ v, lossElement c.analytic (net.apply y, fderiv ℝ net.apply y v) v ∂ν) :=
      fun ir => (hone _).1.const_mul _
    rw [integral_finsetSum _ fun ir _ => hI ir]
    exact Finset.sum_congr rfl fun ir _ => integral_const_mul _ _
  rw [hR, Fintype.sum_prod_type]
  refine Finset.sum_congr rfl fun i _ => ?_
  rw [mul_div_assoc', Finset.mul_sum, Finset.sum_div]
  refine Finset.sum_congr rfl fun r _ => ?_
  rw [(hone fun k => c.sigma * c.gamma ^ (i : ℕ) * z r k).2]
  ring

/-- C52: the case of one noise model and batches of one point: what is estimated is the score of the data, moved. -/
theorem C52_noise_single (p : Vec d → ℝ) (ψ : Vec d → Vec d) (sigma : ℝ) (z : Vec d) (y : Vec d) (hs : sigma ≠ 0) (hp : p (y - fun k => sigma * z k) ≠ 0) :
    Spec.mixtureScore (fun _ : Fin 1 × Fin 1 => sigma ^ 2 / (1 : ℕ)) (fun _ k => sigma * z k) p ψ y = ψ (y - fun k => sigma * z k) := by
  funext i
  unfold Spec.mixtureScore Spec.mixture
  simp only [Finset.sum_const, Finset.card_univ, Fintype.card_prod, Fintype.card_fin, mul_one, one_smul, Nat.cast_one, div_one]
  field_simp

/-- The standard normal density. -/
noncomputable def stdNormal (x : Vec d) : ℝ := (∫ y : Vec d, normalDensity y)⁻¹ * normalDensity x

theorem normalDensity_total : 0 < ∫ y : Vec d, normalDensity y :=
  integral_pos_of_integrable_nonneg_nonzero (x := 0) (IsScore.diff (normalDensity_score (d := d))).continuous normalDensity_integrable
    (fun x => normalDensity_score.1 x) (by rw [normalDensity_eq]; exact (Real.exp_pos _).ne')

theorem stdNormal_score : Spec.IsScore (stdNormal (d := d)) fun x i => - x i := by
  have := C52_mixture_score (ι := Fin 1) (normalDensity_score (d := d)) (fun _ => (∫ y : Vec d, normalDensity y)⁻¹)
    (fun _ => (inv_pos.2 normalDensity_total).le) (fun _ => 0)
  have h1 : Spec.mixture (fun _ : Fin 1 => (∫ y : Vec d, normalDensity y)⁻¹) (fun _ => 0) normalDensity = stdNormal (d := d) := by
    funext y; simp [Spec.mixture, stdNormal]
  refine ⟨fun x => h1 ▸ this.1 x, fun x => ?_⟩
  have h2 := this.2 x
  rw [h1] at h2
  convert h2 using 1
  funext i
  have hz : (∫ y : Vec d, normalDensity y) ≠ 0 := normalDensity_total.ne'
  have hx : normalDensity x ≠ 0 := by rw [normalDensity_eq]; exact (Real.exp_pos _).ne'
  simp only [Spec.mixtureScore, h1, Finset.univ_unique, Finset.sum_singleton, sub_zero]
  unfold stdNormal
  field_simp

/-- The conditions of `C52_noise_mixture` are met by the standard normal in any dimension with normal random vectors, the default batch
size, number of noise models, `sigma` and `gamma`. -/
example (net : ScoreNet d d) (z : Fin 64 → Vec d) (idx : Fin 64 → Fin 1000) :
    ∃ L : (Fin 1000 → Vec d × (Fin 1 → Vec d)) → ℝ,
      (∀ data, ssmLoss ⟨true, false, 100, 1, 95 / 100⟩ net.jvp z (fun r => (data (idx r)).1) (fun r => (data (idx r)).2) = Ext.fin (L data)) ∧
      Integrable L (Spec.dataLaw (Spec.lawOf stdNormal) (Measure.pi fun _ => ProbabilityTheory.gaussianReal 0 1) 1000 1) := by
  have hk : ∀ i n, Integrable fun x : Vec d => stdNormal x * x i ^ n := fun i n => by
    simp only [stdNormal, mul_assoc]
    exact (normalDensity_moment i n).const_mul _
  have h0 : Integrable (stdNormal (d := d)) := normalDensity_integrable.const_mul _
  have h1 : ∫ x : Vec d, stdNormal x = 1 := by
    unfold stdNormal
    rw [integral_const_mul, inv_mul_cancel₀ normalDensity_total.ne']
  obtain ⟨⟨L, a, b, -⟩, -⟩ := C52_noise_mixture stdNormal_score h0 h1 (fun k => hk k 2) (fun i => by simpa using hk i 2)
    (Measure.pi fun _ => ProbabilityTheory.gaussianReal 0 1) _ (C51_generators d).1 ⟨true, false, 100, 1, 95 / 100⟩ rfl net (m := 1) (by norm_num) (by norm_num) z idx
  exact ⟨L, a, b⟩

/-- For the standard normal on the line and the constant vector 2, the estimated score at the origin is 2 instead of 0. -/
example : Spec.mixtureScore (fun _ : Fin 1 × Fin 1 => (1 : ℝ) ^ 2 / (1 : ℕ)) (fun _ k => 1 * (fun _ => 2 : Vec 1) k) stdNormal (fun x i => - x i) 0 0 = 2 := by
  rw [C52_noise_single _ _ 1 _ _ one_ne_zero]
  · simp
  · unfold stdNormal
    rw [normalDensity_eq]
    exact mul_ne_zero (inv_ne_zero normalDensity_total.ne') (Real.exp_pos _).ne'

open Spec in
/-- A mixture of two shifted normal densities. -/
example := C52_mixture_score (ι := Fin 2) (stdNormal_score (d := 2)) ![1 / 3, 2 / 3] (by intro k; fin_cases k <;> norm_num) ![fun _ => 1, fun _ => -1]

end Coreax
