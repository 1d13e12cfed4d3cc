import Verif.Lemmas.ScoreMatching
import Mathlib.Analysis.SpecialFunctions.ExpDeriv
import Mathlib.Analysis.SpecialFunctions.Log.Deriv

/-!
# C51: what sliced score matching minimises

`ν` is the law of the random vectors, `C` its matrix of second moments, `p` the density of the data with score `ψ`, `s` the network.
The expectation of the loss of one data point and one random vector is `∫ p(x) ∫ loss(x, v) dν(v) dx`.
-/

namespace Coreax

open MeasureTheory

variable {d : ℕ} {p : Vec d → ℝ} {ψ s : Vec d → Vec d}

/-- The expected loss of a network `s`, with `jax.jvp` the Fréchet derivative. -/
noncomputable def expectedLoss (analytic : Bool) (ν : Measure (Vec d)) (p : Vec d → ℝ) (s : Vec d → Vec d) : ℝ :=
  ∫ x, p x * ∫ v, lossElement analytic (s x, fderiv ℝ s x v) v ∂ν

theorem Spec.quad_sub (C : Fin d → Fin d → ℝ) (hC : ∀ i j, C i j = C j i) (a b : Vec d) :
    Spec.quad C (fun i => a i - b i) = Spec.quad C a - 2 * (∑ i, ∑ j, C i j * (b j * a i)) + Spec.quad C b := by
  have hsw : ∑ i, ∑ j, C i j * (b j * a i) = ∑ i, ∑ j, C i j * (b i * a j) := by
    rw [Finset.sum_comm]
    refine Finset.sum_congr rfl fun i _ => Finset.sum_congr rfl fun j _ => ?_
    rw [hC]
  have : Spec.quad C (fun i => a i - b i) = Spec.quad C a - ∑ i, ∑ j, C i j * (b j * a i) - ∑ i, ∑ j, C i j * (b i * a j) + Spec.quad C b := by
    unfold Spec.quad
    simp only [← Finset.sum_sub_distrib, ← Finset.sum_add_distrib]
    refine Finset.sum_congr rfl fun i _ => Finset.sum_congr rfl fun j _ => ?_
    ring
  rw [this, hsw]; ring

theorem IsScore.int_quad (h : Spec.IsScore p ψ) (hi : ∀ i, Integrable fun x => p x * ψ x i ^ 2) (C : Fin d → Fin d → ℝ) :
    Integrable fun x => p x * Spec.quad C (ψ x) := by
  have he : (fun x => p x * Spec.quad C (ψ x)) = fun x => ∑ i, ∑ j, C i j * (p x * ψ x i * ψ x j) := by
    funext x; unfold Spec.quad; rw [Finset.mul_sum]
    refine Finset.sum_congr rfl fun i _ => ?_
    rw [Finset.mul_sum]; exact Finset.sum_congr rfl fun j _ => by ring
  rw [he]
  exact integrable_finsetSum _ fun i _ => integrable_finsetSum _ fun j _ => (IsScore.int_score_mul h hi i j).const_mul _

theorem Regular.int_quad (h : Spec.IsScore p ψ) (r : Spec.Regular p ψ s) (C : Fin d → Fin d → ℝ) : Integrable fun x => p x * Spec.quad C (s x) := by
  have he : (fun x => p x * Spec.quad C (s x)) = fun x => ∑ i, ∑ j, C i j * (p x * s x i * s x j) := by
    funext x; unfold Spec.quad; rw [Finset.mul_sum]
    refine Finset.sum_congr rfl fun i _ => ?_
    rw [Finset.mul_sum]; exact Finset.sum_congr rfl fun j _ => by ring
  rw [he]
  exact integrable_finsetSum _ fun i _ => integrable_finsetSum _ fun j _ => (Regular.int_mul h r i j).const_mul _

theorem Regular.int_quad_sub (h : Spec.IsScore p ψ) (r : Spec.Regular p ψ s) (C : Fin d → Fin d → ℝ) (hC : ∀ i j, C i j = C j i) :
    Integrable fun x => p x * Spec.quad C (fun i => s x i - ψ x i) := by
  have he : (fun x => p x * Spec.quad C (fun i => s x i - ψ x i)) = fun x =>
      p x * Spec.quad C (s x) - 2 * (∑ i, ∑ j, C i j * (p x * ψ x j * s x i)) + p x * Spec.quad C (ψ x) := by
    funext x
    rw [Spec.quad_sub C hC]
    have : ∑ i, ∑ j, C i j * (p x * ψ x j * s x i) = p x * ∑ i, ∑ j, C i j * (ψ x j * s x i) := by
      rw [Finset.mul_sum]
      refine Finset.sum_congr rfl fun i _ => ?_
      rw [Finset.mul_sum]; exact Finset.sum_congr rfl fun j _ => by ring
    rw [this]; ring
  rw [he]
  exact ((Regular.int_quad h r C).sub ((Regular.parts_sum h r C).2.1.const_mul 2)).add (IsScore.int_quad h r.int_score C)

/-- **C51.** The default loss: for every law of the random vectors the expected loss of a network is, up to a constant that does not
depend on the network, half the mean squared deviation from the true score, in the quadratic form of the second moments. -/
theorem C51_standard_loss (h : Spec.IsScore p ψ) (r : Spec.Regular p ψ s) (ν : Measure (Vec d)) (C : Fin d → Fin d → ℝ) (hν : Spec.SecondMoments ν C) :
    expectedLoss false ν p s =
      1 / 2 * (∫ x, p x * Spec.quad C (fun i => s x i - ψ x i)) - 1 / 2 * ∫ x, p x * Spec.quad C (ψ x) := by
  have hC := SecondMoments.symm hν
  obtain ⟨i1, i2, hp⟩ := Regular.parts_sum h r C
  have iq := Regular.int_quad h r C
  have hquad : ∀ x, (∑ i, ∑ j, C i j * (s x i * s x j)) = Spec.quad C (s x) := fun x => by
    unfold Spec.quad
    exact Finset.sum_congr rfl fun i _ => Finset.sum_congr rfl fun j _ => by ring
  unfold expectedLoss
  simp only [expected_standard hν, hquad]
  have hl : (fun x => p x * ((∑ i, ∑ j, C i j * fderiv ℝ s x (Pi.single j 1) i) + 1 / 2 * Spec.quad C (s x))) =
      fun x => p x * (∑ i, ∑ j, C i j * fderiv ℝ s x (Pi.single j 1) i) + 1 / 2 * (p x * Spec.quad C (s x)) := by funext x; ring
  rw [hl, integral_add i1 (iq.const_mul _), hp, integral_const_mul]
  have hr : (fun x => p x * Spec.quad C (fun i => s x i - ψ x i)) = fun x =>
      p x * Spec.quad C (s x) - 2 * (∑ i, ∑ j, C i j * (p x * ψ x j * s x i)) + p x * Spec.quad C (ψ x) := by
    funext x
    rw [Spec.quad_sub C hC]
    have : ∑ i, ∑ j, C i j * (p x * ψ x j * s x i) = p x * ∑ i, ∑ j, C i j * (ψ x j * s x i) := by
      rw [Finset.mul_sum]
      refine Finset.sum_congr rfl fun i _ => ?_
      rw [Finset.mul_sum]; exact Finset.sum_congr rfl fun j _ => by ring
    rw [this]; ring
  have isub : Integrable fun x => p x * Spec.quad C (s x) - 2 * ∑ i, ∑ j, C i j * (p x * ψ x j * s x i) := iq.sub (i2.const_mul 2)
  rw [hr, integral_add isub (IsScore.int_quad h r.int_score C), integral_sub iq (i2.const_mul 2), integral_const_mul]
  ring

theorem Spec.sqLen_sub_mulVec (C : Fin d → Fin d → ℝ) (a b : Vec d) :
    Spec.sqLen (fun i => a i - Spec.mulVec C b i) = Spec.sqLen a - 2 * (∑ i, ∑ j, C i j * (b j * a i)) + Spec.sqLen (Spec.mulVec C b) := by
  unfold Spec.sqLen
  rw [Finset.mul_sum, ← Finset.sum_sub_distrib, ← Finset.sum_add_distrib]
  refine Finset.sum_congr rfl fun i _ => ?_
  have : ∑ j, C i j * (b j * a i) = Spec.mulVec C b i * a i := by
    unfold Spec.mulVec; rw [Finset.sum_mul]; exact Finset.sum_congr rfl fun j _ => by ring
  rw [this]; ring

theorem Spec.sqLen_mulVec (C : Fin d → Fin d → ℝ) (b : Vec d) : Spec.sqLen (Spec.mulVec C b) = Spec.quad (fun j k => ∑ i, C i j * C i k) b := by
  unfold Spec.sqLen Spec.mulVec Spec.quad
  have h1 : ∀ i, (∑ j, C i j * b j) ^ 2 = ∑ j, ∑ k, C i j * C i k * b j * b k := fun i => by
    rw [pow_two, Finset.sum_mul_sum]
    exact Finset.sum_congr rfl fun j _ => Finset.sum_congr rfl fun k _ => by ring
  simp only [h1, Finset.sum_mul]
  rw [Finset.sum_comm]
  refine Finset.sum_congr rfl fun j _ => ?_
  rw [Finset.sum_comm]

theorem Spec.sqLen_eq_quad (a : Vec d) : Spec.sqLen a = Spec.quad (fun i j => if i = j then 1 else 0) a := by
  unfold Spec.sqLen Spec.quad
  refine Finset.sum_congr rfl fun i _ => ?_
  simp [pow_two]

/-- **C51.** The "analytic (reduced variance)" loss: up to a constant the expected loss is half the mean squared deviation from the
score *multiplied by the matrix of second moments*. -/
theorem C51_analytic_loss (h : Spec.IsScore p ψ) (r : Spec.Regular p ψ s) (ν : Measure (Vec d)) [IsProbabilityMeasure ν] (C : Fin d → Fin d → ℝ)
    (hν : Spec.SecondMoments ν C) :
    expectedLoss true ν p s =
      1 / 2 * (∫ x, p x * Spec.sqLen (fun i => s x i - Spec.mulVec C (ψ x) i)) - 1 / 2 * ∫ x, p x * Spec.sqLen (Spec.mulVec C (ψ x)) := by
  obtain ⟨i1, i2, hp⟩ := Regular.parts_sum h r C
  have iq := Regular.int_quad h r (fun i j => if i = j then (1 : ℝ) else 0)
  simp only [← Spec.sqLen_eq_quad] at iq
  have iψ : Integrable fun x => p x * Spec.sqLen (Spec.mulVec C (ψ x)) := by
    simp only [Spec.sqLen_mulVec]
    exact IsScore.int_quad h r.int_score _
  have hquad : ∀ x, (∑ i, s x i * s x i) = Spec.sqLen (s x) := fun x => by
    unfold Spec.sqLen
    exact Finset.sum_congr rfl fun i _ => by ring
  unfold expectedLoss
  simp only [expected_analytic hν, hquad]
  have hl : (fun x => p x * ((∑ i, ∑ j, C i j * fderiv ℝ s x (Pi.single j 1) i) + 1 / 2 * Spec.sqLen (s x))) =
      fun x => p x * (∑ i, ∑ j, C i j * fderiv ℝ s x (Pi.single j 1) i) + 1 / 2 * (p x * Spec.sqLen (s x)) := by funext x; ring
  rw [hl, integral_add i1 (iq.const_mul _), hp, integral_const_mul]
  have hr : (fun x => p x * Spec.sqLen (fun i => s x i - Spec.mulVec C (ψ x) i)) = fun x =>
      p x * Spec.sqLen (s x) - 2 * (∑ i, ∑ j, C i j * (p x * ψ x j * s x i)) + p x * Spec.sqLen (Spec.mulVec C (ψ x)) := by
    funext x
    rw [Spec.sqLen_sub_mulVec C]
    have : ∑ i, ∑ j, C i j * (p x * ψ x j * s x i) = p x * ∑ i, ∑ j, C i j * (ψ x j * s x i) := by
      rw [Finset.mul_sum]
      refine Finset.sum_congr rfl fun i _ => ?_
      rw [Finset.mul_sum]; exact Finset.sum_congr rfl fun j _ => by ring
    rw [this]; ring
  have isub : Integrable fun x => p x * Spec.sqLen (s x) - 2 * ∑ i, ∑ j, C i j * (p x * ψ x j * s x i) := iq.sub (i2.const_mul 2)
  rw [hr, integral_add isub iψ, integral_sub iq (i2.const_mul 2), integral_const_mul]
  ring

theorem SecondMoments.quad_nonneg {ν : Measure (Vec d)} {C : Fin d → Fin d → ℝ} (hν : Spec.SecondMoments ν C) (a : Vec d) : 0 ≤ Spec.quad C a := by
  have : Spec.quad C a = ∫ v, (∑ i, v i * a i) ^ 2 ∂ν := by
    have he : (fun v : Vec d => (∑ i, v i * a i) ^ 2) = fun v => ∑ i, ∑ j, v i * v j * (a i * a j) := by
      funext v
      rw [pow_two, Finset.sum_mul_sum]
      exact Finset.sum_congr rfl fun i _ => Finset.sum_congr rfl fun j _ => by ring
    rw [he, integral_finsetSum _ fun i _ => integrable_finsetSum _ fun j _ => (hν i j).1.mul_const _]
    unfold Spec.quad
    refine Finset.sum_congr rfl fun i _ => ?_
    rw [integral_finsetSum _ fun j _ => (hν i j).1.mul_const _]
    refine Finset.sum_congr rfl fun j _ => ?_
    rw [integral_mul_const, (hν i j).2]; ring
  rw [this]
  exact integral_nonneg fun v => sq_nonneg _

/-- **C51.** The true score minimises the default loss, whatever the law of the random vectors; if their second moments are positive
definite, every minimiser agrees with the score at almost every point of positive density. -/
theorem C51_standard_minimiser (h : Spec.IsScore p ψ) (hψ : Spec.Regular p ψ ψ) (r : Spec.Regular p ψ s) (ν : Measure (Vec d))
    (C : Fin d → Fin d → ℝ) (hν : Spec.SecondMoments ν C) :
    expectedLoss false ν p ψ ≤ expectedLoss false ν p s ∧
    ((∀ a : Vec d, a ≠ 0 → 0 < Spec.quad C a) → expectedLoss false ν p s ≤ expectedLoss false ν p ψ → ∀ᵐ x, p x ≠ 0 → s x = ψ x) := by
  rw [C51_standard_loss h r ν C hν, C51_standard_loss h hψ ν C hν]
  have h0 : ∫ x, p x * Spec.quad C (fun i => ψ x i - ψ x i) = 0 := by simp [Spec.quad]
  have hnn : ∀ x, 0 ≤ p x * Spec.quad C (fun i => s x i - ψ x i) := fun x => mul_nonneg (h.1 x) (SecondMoments.quad_nonneg hν _)
  rw [h0]
  have hI : 0 ≤ ∫ x, p x * Spec.quad C (fun i => s x i - ψ x i) := integral_nonneg fun x => hnn x
  refine ⟨by linarith, fun hpd hle => ?_⟩
  have hz : ∫ x, p x * Spec.quad C (fun i => s x i - ψ x i) = 0 := le_antisymm (by linarith) hI
  rw [integral_eq_zero_iff_of_nonneg hnn (Regular.int_quad_sub h r C (SecondMoments.symm hν))] at hz
  filter_upwards [hz] with x hx hp
  by_contra hne
  have : (fun i => s x i - ψ x i) ≠ 0 := fun h0 => hne (funext fun i => by have := congrFun h0 i; simp only [Pi.zero_apply] at this; linarith)
  have hpos := hpd _ this
  have hx' : p x * Spec.quad C (fun i => s x i - ψ x i) = 0 := hx
  rcases mul_eq_zero.1 hx' with h1 | h1
  · exact hp h1
  · exact hpos.ne' h1

/-- **C51.** For random vectors with identity second moments both losses have the same expectation at every point, for every network;
so the analytic loss is minimised by the score as well. -/
theorem C51_analytic_same (ν : Measure (Vec d)) [IsProbabilityMeasure ν] (hν : Spec.SecondMoments ν fun i j => if i = j then 1 else 0)
    (s : Vec d → Vec d) (x : Vec d) :
    ∫ v, lossElement true (s x, fderiv ℝ s x v) v ∂ν = ∫ v, lossElement false (s x, fderiv ℝ s x v) v ∂ν := by
  rw [expected_analytic hν, expected_standard hν]
  simp

theorem Regular.mulVec (h : Spec.IsScore p ψ) (hψ : Spec.Regular p ψ ψ) (C : Fin d → Fin d → ℝ) : Spec.Regular p ψ (fun x => Spec.mulVec C (ψ x)) := by
  have hder : ∀ x j i, fderiv ℝ (fun x => Spec.mulVec C (ψ x)) x (Pi.single j 1) i = ∑ k, C i k * fderiv ℝ ψ x (Pi.single j 1) k := by
    intro x j i
    have h1 : HasFDerivAt (fun x => Spec.mulVec C (ψ x)) (ContinuousLinearMap.pi fun i => ∑ k, C i k • (ContinuousLinearMap.proj k).comp (fderiv ℝ ψ x)) x := by
      rw [hasFDerivAt_pi]
      intro i
      unfold Spec.mulVec
      refine HasFDerivAt.fun_sum fun k _ => ?_
      exact (hasFDerivAt_pi'.1 (hψ.diff x).hasFDerivAt k).const_mul (C i k)
    rw [h1.fderiv]
    simp
  refine ⟨?_, ?_, ?_, ?_, hψ.int_score⟩
  · rw [differentiable_pi]
    intro i
    unfold Spec.mulVec
    exact Differentiable.fun_sum fun k _ => ((differentiable_pi.1 hψ.diff k).const_mul (C i k))
  · intro i j
    simp only [hder, Finset.mul_sum]
    exact integrable_finsetSum _ fun k _ => by
      have := (hψ.int_deriv k j).const_mul (C i k)
      refine this.congr (Filter.Eventually.of_forall fun x => ?_)
      show C i k * (p x * _) = _
      ring
  · intro i
    simp only [Spec.mulVec, Finset.mul_sum]
    exact integrable_finsetSum _ fun k _ => by
      refine ((hψ.int k).const_mul (C i k)).congr (Filter.Eventually.of_forall fun x => ?_)
      show C i k * (p x * _) = _
      ring
  · intro i
    have : (fun x => p x * Spec.mulVec C (ψ x) i ^ 2) = fun x => p x * Spec.quad (fun j k => C i j * C i k) (ψ x) := by
      funext x
      unfold Spec.mulVec Spec.quad
      rw [pow_two, Finset.sum_mul_sum]
      congr 1
      exact Finset.sum_congr rfl fun j _ => Finset.sum_congr rfl fun k _ => by ring
    rw [this]
    exact IsScore.int_quad h hψ.int_score _

/-- **C51**, a condition that nothing checks: in general the analytic loss is minimised by the score multiplied by the matrix of second
moments, and the true score exceeds the minimum by half the mean squared difference of the two. -/
theorem C51_analytic_minimiser (h : Spec.IsScore p ψ) (hψ : Spec.Regular p ψ ψ) (r : Spec.Regular p ψ s) (ν : Measure (Vec d)) [IsProbabilityMeasure ν]
    (C : Fin d → Fin d → ℝ) (hν : Spec.SecondMoments ν C) :
    expectedLoss true ν p (fun x => Spec.mulVec C (ψ x)) ≤ expectedLoss true ν p s ∧
    expectedLoss true ν p ψ - expectedLoss true ν p (fun x => Spec.mulVec C (ψ x)) =
      1 / 2 * ∫ x, p x * Spec.sqLen (fun i => ψ x i - Spec.mulVec C (ψ x) i) := by
  rw [C51_analytic_loss h r ν C hν, C51_analytic_loss h hψ ν C hν, C51_analytic_loss h (Regular.mulVec h hψ C) ν C hν]
  have h0 : ∫ x, p x * Spec.sqLen (fun i => Spec.mulVec C (ψ x) i - Spec.mulVec C (ψ x) i) = 0 := by simp [Spec.sqLen]
  rw [h0]
  have hnn : ∀ x, 0 ≤ p x * Spec.sqLen (fun i => s x i - Spec.mulVec C (ψ x) i) := fun x =>
    mul_nonneg (h.1 x) (Finset.sum_nonneg fun i _ => sq_nonneg _)
  have hI : 0 ≤ ∫ x, p x * Spec.sqLen (fun i => s x i - Spec.mulVec C (ψ x) i) := integral_nonneg fun x => hnn x
  exact ⟨by linarith, by ring⟩

/-! ### The network -/

theorem Dense.hasFDerivAt {a b : ℕ} (l : Dense a b) (x : Vec a) (j : Fin b) :
    HasFDerivAt (fun x => l.apply x j) (∑ i, l.kernel i j • (ContinuousLinearMap.proj i : Vec a →L[ℝ] ℝ)) x := by
  unfold Dense.apply
  refine HasFDerivAt.add_const _ (HasFDerivAt.fun_sum fun i _ => ?_)
  have := (ContinuousLinearMap.proj (R := ℝ) (φ := fun _ : Fin a => ℝ) i).hasFDerivAt (x := x)
  exact this.mul_const _

theorem softplus_hasDerivAt (x : ℝ) : HasDerivAt softplus (Real.exp x / (1 + Real.exp x)) x := by
  unfold softplus
  have := ((Real.hasDerivAt_exp x).const_add 1).log (by positivity)
  exact this

/-- **C51.** The network is differentiable whatever its layers and parameters, and forward differentiation layer by layer gives its value
and its derivative in the given direction. -/
theorem C51_network {a b : ℕ} (net : ScoreNet a b) :
    Differentiable ℝ net.apply ∧ ∀ x v, net.jvp x v = (net.apply x, fderiv ℝ net.apply x v) := by
  induction net with
  | output l =>
    have hd : ∀ x, HasFDerivAt (ScoreNet.output l).apply (ContinuousLinearMap.pi fun j => ∑ i, l.kernel i j • (ContinuousLinearMap.proj i : Vec _ →L[ℝ] ℝ)) x := by
      intro x
      rw [hasFDerivAt_pi]
      exact fun j => l.hasFDerivAt x j
    refine ⟨fun x => (hd x).differentiableAt, fun x v => ?_⟩
    rw [(hd x).fderiv]
    refine Prod.ext rfl (funext fun j => ?_)
    simp only [ScoreNet.jvp, ContinuousLinearMap.coe_pi', sum_apply, smul_apply, ContinuousLinearMap.proj_apply, smul_eq_mul]
    exact Finset.sum_congr rfl fun i _ => mul_comm _ _
  | @hidden a h b l rest ih =>
    have hs : ∀ x, HasFDerivAt (fun x => (fun j => softplus (l.apply x j) : Vec h))
        (ContinuousLinearMap.pi fun j => (Real.exp (l.apply x j) / (1 + Real.exp (l.apply x j))) • ∑ i, l.kernel i j • (ContinuousLinearMap.proj i : Vec a →L[ℝ] ℝ)) x := by
      intro x
      rw [hasFDerivAt_pi]
      exact fun j => (softplus_hasDerivAt _).comp_hasFDerivAt x (l.hasFDerivAt x j)
    have hc : ∀ x, HasFDerivAt (ScoreNet.hidden l rest).apply _ x := fun x => (ih.1 _).hasFDerivAt.comp x (hs x)
    refine ⟨fun x => (hc x).differentiableAt, fun x v => ?_⟩
    rw [(hc x).fderiv]
    show rest.jvp _ _ = _
    rw [ih.2]
    refine Prod.ext rfl ?_
    simp only [ContinuousLinearMap.comp_apply]
    congr 1
    funext j
    simp only [ContinuousLinearMap.coe_pi', sum_apply, smul_apply, ContinuousLinearMap.proj_apply, smul_eq_mul]
    rw [mul_comm]
    congr 1
    exact Finset.sum_congr rfl fun i _ => mul_comm _ _

end Coreax
