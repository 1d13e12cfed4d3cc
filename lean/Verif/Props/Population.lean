import Verif.Lemmas.Population
import Verif.Props.Metrics
import Verif.Props.HerdingRate
import Verif.Props.Kernel
import Mathlib.MeasureTheory.Constructions.BorelSpace.Real
import Mathlib.MeasureTheory.Function.SpecialFunctions.Basic

/-!
# C88: what the maximum mean discrepancy of samples says about the distributions they come from
-/

namespace Coreax

open Finset MeasureTheory ProbabilityTheory Spec
open scoped RealInnerProductSpace

universe u
variable {X : Type u} [MeasurableSpace X] {k : X → X → ℝ} {R : ℝ}

namespace Population

theorem integral_three {Y : Type*} [MeasurableSpace Y] {ν : Measure Y} {f g h : Y → ℝ} (hf : Integrable f ν) (hg : Integrable g ν)
    (hh : Integrable h ν) : Integrable (fun y => f y - 2 * g y + h y) ν ∧ ∫ y, (f y - 2 * g y + h y) ∂ν = ∫ y, f y ∂ν - 2 * ∫ y, g y ∂ν + ∫ y, h y ∂ν := by
  have hg2 := hg.const_mul 2
  have hfg : Integrable (fun y => f y - 2 * g y) ν := hf.sub hg2
  refine ⟨hfg.add hh, ?_⟩
  rw [integral_add hfg hh, integral_sub hf hg2, integral_const_mul]

/-- A probability measure with its proof. -/
def pm (P : Measure X) [h : IsProbabilityMeasure P] : ProbabilityMeasure X := ⟨P, h⟩

theorem coe_pm (P : Measure X) [IsProbabilityMeasure P] : (pm P : Measure X) = P := rfl

section feature
variable {H : Type*} [NormedAddCommGroup H] [InnerProductSpace ℝ H] {Φ : ProbabilityMeasure X → H} {φ : X → H}

theorem popMmdSq_norm (h1 : ∀ P Q : ProbabilityMeasure X, meanOver k (P : Measure X) (Q : Measure X) = ⟪Φ P, Φ Q⟫) (P Q : Measure X)
    [IsProbabilityMeasure P] [IsProbabilityMeasure Q] : popMmdSq k P Q = ‖Φ (pm P) - Φ (pm Q)‖ ^ 2 := by
  rw [norm_sub_sq_real, ← real_inner_self_eq_norm_sq, ← real_inner_self_eq_norm_sq, ← h1, ← h1, ← h1]
  rfl

theorem inner_embedding (h3 : ∀ (a : X) (P : ProbabilityMeasure X), ∫ z, k a z ∂(P : Measure X) = ⟪φ a, Φ P⟫) (P : Measure X)
    [IsProbabilityMeasure P] {m : ℕ} (y : Fin m → X) (w : Fin m → ℝ) :
    ⟪meanEmbedding φ y w, Φ (pm P)⟫ = avg w fun i => ∫ z, k (y i) z ∂P := by
  have e : ∀ i, ∫ z, k (y i) z ∂P = ⟪φ (y i), Φ (pm P)⟫ := fun i => h3 (y i) (pm P)
  simp only [meanEmbedding, inner_smul_left, sum_inner, RCLike.conj_to_real, avg, e]
  rw [div_eq_inv_mul]

theorem inner_embeddings (h2 : ∀ a b, k a b = ⟪φ a, φ b⟫) {n m : ℕ} (x : Fin n → X) (v : Fin n → ℝ) (y : Fin m → X) (w : Fin m → ℝ) :
    ⟪meanEmbedding φ x v, meanEmbedding φ y w⟫ = avg v fun i => avg w fun j => k (x i) (y j) := by
  simp only [meanEmbedding, inner_smul_left, inner_smul_right, sum_inner, inner_sum, RCLike.conj_to_real, avg, h2, div_eq_inv_mul, mul_sum]
  refine sum_comm.trans (sum_congr rfl fun i _ => sum_congr rfl fun j _ => by ring)

theorem mmdSqTo_norm (h1 : ∀ P Q : ProbabilityMeasure X, meanOver k (P : Measure X) (Q : Measure X) = ⟪Φ P, Φ Q⟫)
    (h2 : ∀ a b, k a b = ⟪φ a, φ b⟫) (h3 : ∀ (a : X) (P : ProbabilityMeasure X), ∫ z, k a z ∂(P : Measure X) = ⟪φ a, Φ P⟫) (P : Measure X)
    [IsProbabilityMeasure P] {m : ℕ} (y : Fin m → X) (w : Fin m → ℝ) : mmdSqTo k y w P = ‖meanEmbedding φ y w - Φ (pm P)‖ ^ 2 := by
  rw [norm_sub_sq_real, ← real_inner_self_eq_norm_sq, ← real_inner_self_eq_norm_sq, ← h1, inner_embedding h3, inner_embeddings h2]
  rfl

end feature

theorem diag_nonneg {Y : Type*} {r : Y → Y → ℝ} (hk : IsPSD r) (x : Y) : 0 ≤ r x x := by
  simpa using hk.2 1 (fun _ => x) fun _ => 1

theorem avg_ones {n : ℕ} (f : Fin n → ℝ) : avg (fun _ => (1 : ℝ)) f = (∑ i, f i) / n := by simp [avg]

section draws
variable {Ω : Type*} [MeasurableSpace Ω] {μ : Measure Ω} [IsProbabilityMeasure μ]

/-- The mean over one sample with itself. -/
theorem mean_self (hk : IsPSD k) (hm : Measurable fun q : X × X => k q.1 q.2) (hR : ∀ x, k x x ≤ R) {P : Measure X} {n : ℕ} (hn : 0 < n)
    (U : Fin n → Ω → X) (hU : ∀ i, Measurable (U i)) (hP : ∀ i, μ.map (U i) = P) (hi : Pairwise fun i j => U i ⟂ᵢ[μ] U j) :
    Integrable (fun ω => avg (fun _ => (1 : ℝ)) fun i => avg (fun _ => (1 : ℝ)) fun j => k (U i ω) (U j ω)) μ ∧
      ∫ ω, (avg (fun _ => (1 : ℝ)) fun i => avg (fun _ => (1 : ℝ)) fun j => k (U i ω) (U j ω)) ∂μ = meanOver k P P + popSpread k P / n := by
  have hE : ∀ i j, Integrable (fun ω => k (U i ω) (U j ω)) μ ∧ ∫ ω, k (U i ω) (U j ω) ∂μ =
      meanOver k P P + if i = j then popSpread k P else 0 := fun i j => by
    by_cases h : i = j
    · subst h
      have := mean_diag hk hm hR (hU i) (hP i)
      refine ⟨this.1, ?_⟩
      rw [this.2, if_pos rfl, popSpread]
      ring
    · have := mean_pair hk hm hR (hU i) (hU j) (hP i) (hP j) (hi h)
      refine ⟨this.1, ?_⟩
      rw [this.2, if_neg h, add_zero]
  have hn' : (n : ℝ) ≠ 0 := by exact_mod_cast hn.ne'
  simp only [avg_ones]
  have hs : ∀ i, Integrable (fun ω => (∑ j, k (U i ω) (U j ω)) / (n : ℝ)) μ := fun i =>
    (integrable_finsetSum _ fun j _ => (hE i j).1).div_const _
  refine ⟨(integrable_finsetSum _ fun i _ => hs i).div_const _, ?_⟩
  rw [integral_div, integral_finsetSum _ fun i _ => hs i]
  have e : ∀ i, ∫ ω, (∑ j, k (U i ω) (U j ω)) / (n : ℝ) ∂μ = meanOver k P P + popSpread k P / n := fun i => by
    rw [integral_div, integral_finsetSum _ fun j _ => (hE i j).1]
    simp only [fun j => (hE i j).2, sum_add_distrib, sum_ite_eq, mem_univ, if_true, sum_const, card_univ, Fintype.card_fin, nsmul_eq_mul]
    field_simp
  simp only [e, sum_const, card_univ, Fintype.card_fin, nsmul_eq_mul]
  field_simp

/-- The mean over two samples. -/
theorem mean_cross (hk : IsPSD k) (hm : Measurable fun q : X × X => k q.1 q.2) (hR : ∀ x, k x x ≤ R) {P Q : Measure X} {n m : ℕ} (hn : 0 < n)
    (h0 : 0 < m) (U : Fin n → Ω → X) (V : Fin m → Ω → X) (hU : ∀ i, Measurable (U i)) (hV : ∀ j, Measurable (V j)) (hP : ∀ i, μ.map (U i) = P)
    (hQ : ∀ j, μ.map (V j) = Q) (hi : ∀ i j, U i ⟂ᵢ[μ] V j) :
    Integrable (fun ω => avg (fun _ => (1 : ℝ)) fun i => avg (fun _ => (1 : ℝ)) fun j => k (U i ω) (V j ω)) μ ∧
      ∫ ω, (avg (fun _ => (1 : ℝ)) fun i => avg (fun _ => (1 : ℝ)) fun j => k (U i ω) (V j ω)) ∂μ = meanOver k P Q := by
  have hE := fun i j => mean_pair hk hm hR (hU i) (hV j) (hP i) (hQ j) (hi i j)
  have hn' : (n : ℝ) ≠ 0 := by exact_mod_cast hn.ne'
  have hm' : (m : ℝ) ≠ 0 := by exact_mod_cast h0.ne'
  simp only [avg_ones]
  have hs : ∀ i, Integrable (fun ω => (∑ j, k (U i ω) (V j ω)) / (m : ℝ)) μ := fun i =>
    (integrable_finsetSum _ fun j _ => (hE i j).1).div_const _
  refine ⟨(integrable_finsetSum _ fun i _ => hs i).div_const _, ?_⟩
  rw [integral_div, integral_finsetSum _ fun i _ => hs i]
  have e : ∀ i, ∫ ω, (∑ j, k (U i ω) (V j ω)) / (m : ℝ) ∂μ = meanOver k P Q := fun i => by
    rw [integral_div, integral_finsetSum _ fun j _ => (hE i j).1]
    simp only [fun j => (hE i j).2, sum_const, card_univ, Fintype.card_fin, nsmul_eq_mul]
    field_simp
  simp only [e, sum_const, card_univ, Fintype.card_fin, nsmul_eq_mul]
  field_simp

/-- The mean squared discrepancy between a sample and its distribution. -/
theorem mean_to (hk : IsPSD k) (hm : Measurable fun q : X × X => k q.1 q.2) (hR : ∀ x, k x x ≤ R) {P : Measure X} [IsProbabilityMeasure P] {n : ℕ}
    (hn : 0 < n) (U : Fin n → Ω → X) (hU : ∀ i, Measurable (U i)) (hP : ∀ i, μ.map (U i) = P) (hi : Pairwise fun i j => U i ⟂ᵢ[μ] U j) :
    Integrable (fun ω => mmdSqTo k (fun i => U i ω) (fun _ => 1) P) μ ∧
      ∫ ω, mmdSqTo k (fun i => U i ω) (fun _ => 1) P ∂μ = popSpread k P / n := by
  obtain ⟨a1, a2⟩ := mean_self hk hm hR hn U hU hP hi
  have hn' : (n : ℝ) ≠ 0 := by exact_mod_cast hn.ne'
  have hE := fun i => mean_left hk hm hR P (hU i) (hP i)
  have b : Integrable (fun ω => avg (fun _ => (1 : ℝ)) fun i => ∫ z, k (U i ω) z ∂P) μ ∧
      ∫ ω, (avg (fun _ => (1 : ℝ)) fun i => ∫ z, k (U i ω) z ∂P) ∂μ = meanOver k P P := by
    simp only [avg_ones]
    refine ⟨(integrable_finsetSum _ fun i _ => (hE i).1).div_const _, ?_⟩
    rw [integral_div, integral_finsetSum _ fun i _ => (hE i).1]
    simp only [fun i => (hE i).2, sum_const, card_univ, Fintype.card_fin, nsmul_eq_mul]
    field_simp
  have hc : Integrable (fun _ : Ω => meanOver k P P) μ := integrable_const _
  obtain ⟨t1, t2⟩ := integral_three a1 b.1 hc
  refine ⟨t1, t2.trans ?_⟩
  rw [a2, b.2]
  simp
  ring

end draws

end Population

open Population

section
variable [Zero X] {Ω : Type*} [MeasurableSpace Ω] {μ : Measure Ω} [IsProbabilityMeasure μ] {P Q : Measure X} {n m : ℕ}

theorem Population.ones_ne {n : ℕ} (hn : 0 < n) (x : Fin n → X) : ∑ i, (Data.ofArray (K := ℝ) x).weights i ≠ 0 := by
  simpa [Data.ofArray] using hn.ne'

/-- **C88.** The squared discrepancy computed from two samples, on average: the squared discrepancy between their distributions plus the spread
of each distribution divided by the size of its sample. -/
theorem C88_expected (big : ℝ) (hk : IsPSD k) (hm : Measurable fun q : X × X => k q.1 q.2) (hR : ∀ x, k x x ≤ R) (hn : 0 < n) (h0 : 0 < m)
    (U : Fin n → Ω → X) (V : Fin m → Ω → X) (hU : ∀ i, Measurable (U i)) (hV : ∀ j, Measurable (V j)) (hP : ∀ i, μ.map (U i) = P)
    (hQ : ∀ j, μ.map (V j) = Q) (hi : Pairwise fun i j => U i ⟂ᵢ[μ] U j) (hj : Pairwise fun i j => V i ⟂ᵢ[μ] V j) (hij : ∀ i j, U i ⟂ᵢ[μ] V j)
    (bs : PyTree (Option ℤ)) (hbs : ValidBlock bs) :
    ∃ r : Ω → ℝ, (∀ ω, mmdCompute big k (Data.ofArray fun i => U i ω) (Data.ofArray fun j => V j ω) bs = .ok (r ω)) ∧
      Integrable (fun ω => r ω ^ 2) μ ∧ ∫ ω, r ω ^ 2 ∂μ = popMmdSq k P Q + popSpread k P / n + popSpread k Q / m := by
  refine ⟨_, fun ω => C07_compute big k hn h0 (Data.ofArray fun i => U i ω) (Data.ofArray fun j => V j ω) (ones_ne hn _) (ones_ne h0 _) bs hbs, ?_⟩
  have hsq : ∀ ω, Real.sqrt (max 0 (mmdSq k (Data.ofArray (K := ℝ) fun i => U i ω).data (Data.ofArray (K := ℝ) fun i => U i ω).weights
      (Data.ofArray (K := ℝ) fun j => V j ω).data (Data.ofArray (K := ℝ) fun j => V j ω).weights)) ^ 2 =
      (avg (fun _ => (1 : ℝ)) fun i => avg (fun _ => (1 : ℝ)) fun j => k (U i ω) (U j ω))
        - 2 * (avg (fun _ => (1 : ℝ)) fun i => avg (fun _ => (1 : ℝ)) fun j => k (U i ω) (V j ω))
        + (avg (fun _ => (1 : ℝ)) fun i => avg (fun _ => (1 : ℝ)) fun j => k (V i ω) (V j ω)) := fun ω => by
    rw [Real.sq_sqrt (le_max_left _ _), max_eq_right
      (C07_rkhs_distance big k hk hn h0 (Data.ofArray fun i => U i ω) (Data.ofArray fun j => V j ω) (ones_ne hn _) (ones_ne h0 _) bs hbs).1]
    rfl
  simp only [hsq]
  obtain ⟨a1, a2⟩ := mean_self hk hm hR hn U hU hP hi
  obtain ⟨b1, b2⟩ := mean_self hk hm hR h0 V hV hQ hj
  obtain ⟨c1, c2⟩ := mean_cross hk hm hR hn h0 U V hU hV hP hQ hij
  obtain ⟨t1, t2⟩ := integral_three a1 c1 b1
  refine ⟨t1, t2.trans ?_⟩
  rw [a2, b2, c2, popMmdSq]
  ring

/-- **C88.** The computed discrepancy estimates the discrepancy between the distributions: the probability of an error of `ε` or more is at most
`2 / ε²` times the sum of the spreads divided by the sample sizes. -/
theorem C88_consistent (big : ℝ) (hk : IsPSD k) (hm : Measurable fun q : X × X => k q.1 q.2) (hR : ∀ x, k x x ≤ R) [IsProbabilityMeasure P]
    [IsProbabilityMeasure Q] (hn : 0 < n) (h0 : 0 < m) (U : Fin n → Ω → X) (V : Fin m → Ω → X) (hU : ∀ i, Measurable (U i))
    (hV : ∀ j, Measurable (V j)) (hP : ∀ i, μ.map (U i) = P) (hQ : ∀ j, μ.map (V j) = Q) (hi : Pairwise fun i j => U i ⟂ᵢ[μ] U j)
    (hj : Pairwise fun i j => V i ⟂ᵢ[μ] V j) (bs : PyTree (Option ℤ)) (hbs : ValidBlock bs) {ε : ℝ} (hε : 0 < ε) :
    ∃ r : Ω → ℝ, (∀ ω, mmdCompute big k (Data.ofArray fun i => U i ω) (Data.ofArray fun j => V j ω) bs = .ok (r ω)) ∧
      μ.real {ω | ε ≤ |r ω - Real.sqrt (popMmdSq k P Q)|} ≤ 2 * (popSpread k P / n + popSpread k Q / m) / ε ^ 2 := by
  obtain ⟨H, i1, i2, Φ, φ, h1, h2, h3⟩ := exists_measure_feature hk hm hR
  refine ⟨_, fun ω => (C07_rkhs_distance big k hk hn h0 (Data.ofArray fun i => U i ω) (Data.ofArray fun j => V j ω) (ones_ne hn _) (ones_ne h0 _)
    bs hbs).2 H i1 i2 φ h2, ?_⟩
  obtain ⟨a1, a2⟩ := mean_to hk hm hR hn U hU hP hi
  obtain ⟨b1, b2⟩ := mean_to hk hm hR h0 V hV hQ hj
  have hg := (a1.add b1).const_mul 2
  have hnn : 0 ≤ᵐ[μ] fun ω => 2 * (mmdSqTo k (fun i => U i ω) (fun _ => 1) P + mmdSqTo k (fun i => V i ω) (fun _ => 1) Q) := by
    filter_upwards with ω
    rw [mmdSqTo_norm h1 h2 h3, mmdSqTo_norm h1 h2 h3]
    positivity
  have hmk := mul_meas_ge_le_integral_of_nonneg hnn hg (ε ^ 2)
  have hint : ∫ ω, 2 * (mmdSqTo k (fun i => U i ω) (fun _ => 1) P + mmdSqTo k (fun i => V i ω) (fun _ => 1) Q) ∂μ =
      2 * (popSpread k P / n + popSpread k Q / m) := by
    rw [integral_const_mul, integral_add a1 b1, a2, b2]
  have hmk' : ε ^ 2 * μ.real {ω | ε ^ 2 ≤ 2 * (mmdSqTo k (fun i => U i ω) (fun _ => 1) P + mmdSqTo k (fun i => V i ω) (fun _ => 1) Q)} ≤
      2 * (popSpread k P / n + popSpread k Q / m) := hint ▸ hmk
  rw [le_div_iff₀ (by positivity), mul_comm]
  refine le_trans (mul_le_mul_of_nonneg_left (measureReal_mono fun ω hω => ?_) (by positivity)) hmk'
  simp only [Set.mem_setOf_eq] at hω ⊢
  rw [popMmdSq_norm h1, Real.sqrt_sq (norm_nonneg _)] at hω
  rw [mmdSqTo_norm h1 h2 h3, mmdSqTo_norm h1 h2 h3]
  set A := meanEmbedding φ (fun i => U i ω) (fun _ => (1 : ℝ))
  set B := meanEmbedding φ (fun i => V i ω) (fun _ => (1 : ℝ))
  have e : |‖A - B‖ - ‖Φ (pm P) - Φ (pm Q)‖| ≤ ‖A - Φ (pm P)‖ + ‖B - Φ (pm Q)‖ := by
    refine (abs_norm_sub_norm_le _ _).trans ?_
    have : A - B - (Φ (pm P) - Φ (pm Q)) = (A - Φ (pm P)) - (B - Φ (pm Q)) := by abel
    rw [this]
    exact norm_sub_le _ _
  have e' := hω.trans e
  nlinarith [sq_nonneg (‖A - Φ (pm P)‖ - ‖B - Φ (pm Q)‖), norm_nonneg (A - Φ (pm P)), norm_nonneg (B - Φ (pm Q))]

/-- **C88.** A coreset of a sample represents the distribution the sample came from.  For every weighted set of points at once, chosen in any way
from the sample, the discrepancy to the distribution differs from the reported discrepancy to the sample by at most the discrepancy of the
sample itself, whose mean square is the spread divided by the sample size. -/
theorem C88_coreset (big : ℝ) (hk : IsPSD k) (hm : Measurable fun q : X × X => k q.1 q.2) (hR : ∀ x, k x x ≤ R) [IsProbabilityMeasure P] (hn : 0 < n)
    (U : Fin n → Ω → X) (hU : ∀ i, Measurable (U i)) (hP : ∀ i, μ.map (U i) = P) (hi : Pairwise fun i j => U i ⟂ᵢ[μ] U j) :
    ∃ e : Ω → ℝ, (∀ ω, 0 ≤ e ω) ∧ Integrable (fun ω => e ω ^ 2) μ ∧ ∫ ω, e ω ^ 2 ∂μ = popSpread k P / n ∧
      ∀ (ω : Ω) (m : ℕ) (_ : 0 < m) (y : Data m X ℝ) (_ : ∑ i, y.weights i ≠ 0) (bs : PyTree (Option ℤ)) (_ : ValidBlock bs),
        ∃ r, mmdCompute big k (Data.ofArray fun i => U i ω) y bs = .ok r ∧ |Real.sqrt (mmdSqTo k y.data y.weights P) - r| ≤ e ω := by
  obtain ⟨H, i1, i2, Φ, φ, h1, h2, h3⟩ := exists_measure_feature hk hm hR
  obtain ⟨a1, a2⟩ := mean_to hk hm hR hn U hU hP hi
  have hs : ∀ ω, ‖meanEmbedding φ (fun i => U i ω) (fun _ => (1 : ℝ)) - Φ (pm P)‖ ^ 2 = mmdSqTo k (fun i => U i ω) (fun _ => 1) P := fun ω =>
    (mmdSqTo_norm h1 h2 h3 P _ _).symm
  refine ⟨fun ω => ‖meanEmbedding φ (fun i => U i ω) (fun _ => (1 : ℝ)) - Φ (pm P)‖, fun ω => norm_nonneg _, ?_, ?_, ?_⟩
  · simpa only [hs] using a1
  · simpa only [hs] using a2
  · intro ω m hm0 y hy bs hbs
    refine ⟨_, (C07_rkhs_distance big k hk hn hm0 (Data.ofArray fun i => U i ω) y (ones_ne hn _) hy bs hbs).2 H i1 i2 φ h2, ?_⟩
    rw [mmdSqTo_norm h1 h2 h3, Real.sqrt_sq (norm_nonneg _), norm_sub_rev (meanEmbedding φ (Data.ofArray fun i => U i ω).data _)]
    refine (abs_norm_sub_norm_le _ _).trans ?_
    rw [sub_sub_sub_cancel_left]
    exact le_refl _

/-- **C88.** Means of functions under the distribution, from a coreset: for a combination `f` of kernel functions the weighted mean over the
points differs from the mean under the distribution by at most the norm of `f` times the discrepancy. -/
theorem C88_integral (hk : IsPSD k) (hm : Measurable fun q : X × X => k q.1 q.2) (hR : ∀ x, k x x ≤ R) [IsProbabilityMeasure P]
    (y : Fin m → X) (w : Fin m → ℝ) {N : ℕ} (z : Fin N → X) (c : Fin N → ℝ) :
    |(avg w fun i => ∑ l, c l * k (z l) (y i)) - ∫ x, ∑ l, c l * k (z l) x ∂P| ≤
      Real.sqrt (∑ i, ∑ j, c i * c j * k (z i) (z j)) * Real.sqrt (mmdSqTo k y w P) := by
  obtain ⟨H, i1, i2, Φ, φ, h1, h2, h3⟩ := exists_measure_feature hk hm hR
  obtain ⟨g, hg⟩ : ∃ g : H, g = ∑ l, c l • φ (z l) := ⟨_, rfl⟩
  have e1 : ∀ x, ∑ l, c l * k (z l) x = ⟪φ x, g⟫ := fun x => by
    rw [hg, inner_sum]
    exact sum_congr rfl fun l _ => by rw [inner_smul_right, h2, real_inner_comm]
  have e2 : ∑ i, ∑ j, c i * c j * k (z i) (z j) = ‖g‖ ^ 2 := by
    rw [← real_inner_self_eq_norm_sq, hg, sum_inner]
    refine sum_congr rfl fun i _ => ?_
    rw [inner_sum]
    exact sum_congr rfl fun j _ => by
      rw [inner_smul_left, inner_smul_right, h2, RCLike.conj_to_real]
      ring
  have e3 : ∫ x, ∑ l, c l * k (z l) x ∂P = ⟪Φ (pm P), g⟫ := by
    rw [integral_finsetSum _ fun l _ => (integrable_left hk hm hR P (z l)).const_mul _, hg, inner_sum]
    refine sum_congr rfl fun l _ => ?_
    rw [integral_const_mul, inner_smul_right, real_inner_comm, ← h3, coe_pm]
  have e4 : (avg w fun i => ∑ l, c l * k (z l) (y i)) = ⟪meanEmbedding φ y w, g⟫ := by
    simp only [e1, avg, meanEmbedding, inner_smul_left, sum_inner, RCLike.conj_to_real]
    rw [div_eq_inv_mul]
  rw [e2, e3, e4, mmdSqTo_norm h1 h2 h3, Real.sqrt_sq (norm_nonneg _), Real.sqrt_sq (norm_nonneg _), ← inner_sub_left, mul_comm]
  exact abs_real_inner_le_norm _ _

end

/-- **C88.** The squared discrepancy between distributions and the spread are never negative, so the computed squared discrepancy is on average
too large. -/
theorem C88_biased (hk : IsPSD k) (hm : Measurable fun q : X × X => k q.1 q.2) (hR : ∀ x, k x x ≤ R) (P Q : Measure X) [IsProbabilityMeasure P]
    [IsProbabilityMeasure Q] :
    0 ≤ popMmdSq k P Q ∧ popMmdSq k P P = 0 ∧ 0 ≤ popSpread k P ∧ popSpread k P ≤ R ∧
      popSpread k P = (∫ x, ∫ y, (k x x - 2 * k x y + k y y) ∂P ∂P) / 2 := by
  obtain ⟨H, i1, i2, Φ, φ, h1, h2, h3⟩ := exists_measure_feature hk hm hR
  have hd := integrable_diag hk hm hR P
  have hs : popSpread k P = (∫ x, ∫ y, (k x x - 2 * k x y + k y y) ∂P ∂P) / 2 := by
    have e : ∀ x, ∫ y, (k x x - 2 * k x y + k y y) ∂P = k x x - 2 * (∫ y, k x y ∂P) + ∫ y, k y y ∂P := fun x => by
      rw [(integral_three (integrable_const (k x x)) (integrable_left hk hm hR P x) hd).2]
      simp
    have hI := (integrable_kernel hk hm hR (P.prod P)).integral_prod_left
    simp only [e]
    rw [(integral_three hd hI (integrable_const (∫ y, k y y ∂P))).2, popSpread, meanOver]
    simp
    ring
  have hmo : 0 ≤ meanOver k P P := by
    have := h1 (pm P) (pm P)
    rw [coe_pm] at this
    rw [this]
    exact real_inner_self_nonneg
  refine ⟨?_, ?_, ?_, ?_, hs⟩
  · rw [popMmdSq_norm h1]
    positivity
  · rw [popMmdSq]
    ring
  · rw [hs]
    refine div_nonneg (integral_nonneg fun x => integral_nonneg fun y => ?_) (by norm_num)
    have : k x x - 2 * k x y + k y y = ‖φ x - φ y‖ ^ 2 := by
      rw [norm_sub_sq_real, ← real_inner_self_eq_norm_sq, ← real_inner_self_eq_norm_sq, ← h2, ← h2, ← h2]
    show 0 ≤ k x x - 2 * k x y + k y y
    rw [this]
    positivity
  · have : ∫ x, k x x ∂P ≤ ∫ _, R ∂P := integral_mono hd (integrable_const _) hR
    simp at this
    rw [popSpread]
    linarith

/-- **C88.** When two samples of the same distribution are compared, the mean squared discrepancy is zero only if the distribution is concentrated on a
single point (for a kernel that tells points apart). -/
theorem C88_same (hk : IsPSD k) (hm : Measurable fun q : X × X => k q.1 q.2) (hR : ∀ x, k x x ≤ R) (hsep : ∀ x y, k x x - 2 * k x y + k y y = 0 → x = y)
    (P : Measure X) [IsProbabilityMeasure P] : popSpread k P = 0 ↔ ∃ a, P = Measure.dirac a := by
  obtain ⟨-, -, -, -, hs⟩ := C88_biased hk hm hR P P
  have hmd : Measurable fun x => k x x := hm.comp (measurable_id.prodMk measurable_id)
  constructor
  · intro h
    rw [hs] at h
    have hint : Integrable (fun q : X × X => k q.1 q.1 - 2 * k q.1 q.2 + k q.2 q.2) (P.prod P) :=
      (integral_three ((integrable_diag hk hm hR P).comp_fst P) (integrable_kernel hk hm hR _) ((integrable_diag hk hm hR P).comp_snd P)).1
    have hnn : ∀ q : X × X, 0 ≤ k q.1 q.1 - 2 * k q.1 q.2 + k q.2 q.2 := fun q => by
      obtain ⟨H, _, _, φ, hφ⟩ := hk.exists_feature
      have : k q.1 q.1 - 2 * k q.1 q.2 + k q.2 q.2 = ‖φ q.1 - φ q.2‖ ^ 2 := by
        rw [norm_sub_sq_real, ← real_inner_self_eq_norm_sq, ← real_inner_self_eq_norm_sq, ← hφ, ← hφ, ← hφ]
      rw [this]
      positivity
    have h0 : ∫ q, (k q.1 q.1 - 2 * k q.1 q.2 + k q.2 q.2) ∂(P.prod P) = 0 := by
      rw [integral_prod _ hint]
      linarith
    rw [integral_eq_zero_iff_of_nonneg hnn hint] at h0
    have h1 := Measure.ae_ae_of_ae_prod h0
    obtain ⟨a, ha⟩ := h1.exists
    refine ⟨a, Measure.ext fun s hs => ?_⟩
    have hae : ∀ᵐ y ∂P, a = y := ha.mono fun y hy => hsep a y hy
    rw [Measure.dirac_apply' _ hs]
    by_cases has : a ∈ s
    · rw [Set.indicator_of_mem has, Pi.one_apply, ← mem_ae_iff_prob_eq_one hs]
      exact hae.mono fun y hy => hy ▸ has
    · rw [Set.indicator_of_notMem has]
      have : ∀ᵐ y ∂P, y ∉ s := hae.mono fun y hy => hy ▸ has
      simpa [ae_iff] using this
  · rintro ⟨a, rfl⟩
    have hd : ∀ f : X → ℝ, Measurable f → ∫ x, f x ∂(Measure.dirac a) = f a := fun f hf => integral_dirac' _ _ hf.stronglyMeasurable
    have hmi : Measurable fun x => ∫ y, k x y ∂(Measure.dirac a) := (hm.stronglyMeasurable.integral_prod_right (ν := Measure.dirac a)).measurable
    have hma : Measurable fun y => k a y := hm.comp (measurable_const.prodMk measurable_id)
    rw [popSpread, meanOver, hd _ hmd, hd _ hmi, hd _ hma, sub_self]

/-- **C88.** The coreset that kernel herding selects from a sample of any size represents the distribution: its discrepancy to the distribution is at
most `sqrt (R / size)` plus the discrepancy of the sample, with mean square at most `R / n`. -/
theorem C88_herding [Zero X] {Ω : Type*} [MeasurableSpace Ω] {μ : Measure Ω} [IsProbabilityMeasure μ] {P : Measure X} [IsProbabilityMeasure P] {n : ℕ}
    [NeZero n] (big : ℝ) (hk : IsPSD k) (hm : Measurable fun q : X × X => k q.1 q.2) (hR : ∀ x, k x x ≤ R) (U : Fin n → Ω → X)
    (hU : ∀ i, Measurable (U i)) (hP : ∀ i, μ.map (U i) = P) (hi : Pairwise fun i j => U i ⟂ᵢ[μ] U j) (size : ℕ) (hsize : 0 < size) (hle : size ≤ n)
    (bs : PyTree (Option ℤ)) (hbs : ValidBlock bs) (ord : List (Fin (size + (size - size)))) (hord : ∀ t, t ∈ ord) :
    ∃ e : Ω → ℝ, Integrable (fun ω => e ω ^ 2) μ ∧ ∫ ω, e ω ^ 2 ∂μ ≤ R / n ∧
      ∀ ω, ∃ f : Fin size → Fin n, ∃ st, herdingReduce big k none true bs size (Data.ofArray fun i => U i ω) none ord
          = .ok (⟨fun t => (f t : ℤ), fun _ => 1⟩, st) ∧
        Real.sqrt (mmdSqTo k (fun t => U (f t) ω) (fun _ => 1) P) ≤ Real.sqrt (R / size) + e ω := by
  have hn := Nat.pos_of_ne_zero (NeZero.ne n)
  obtain ⟨e, h0, h1, h2, h3⟩ := C88_coreset big hk hm hR hn U hU hP hi
  refine ⟨e, h1, ?_, fun ω => ?_⟩
  · rw [h2]
    exact div_le_div_of_nonneg_right (C88_biased hk hm hR P P).2.2.2.1 (by positivity)
  · obtain ⟨f, st, hf, hb⟩ := C48_herding_rate_unique big k hk.1 bs hbs size hsize (Data.ofArray fun i => U i ω)
      (fun c => hk.2 n _ c) ⟨1, one_pos, fun j => Or.inr rfl⟩ (by simpa [PosCount, Data.ofArray] using hle) none (fun _ h => by cases h) ord hord R
      (fun j _ => hR _)
    refine ⟨f, st, hf, ?_⟩
    have hy : ∑ i, (Data.ofArray (K := ℝ) fun t => U (f t) ω).weights i ≠ 0 := ones_ne hsize _
    obtain ⟨r, hr, hd⟩ := h3 ω size hsize (Data.ofArray fun t => U (f t) ω) hy (.leaf none) (Or.inl rfl)
    rw [C07_compute big k hn hsize _ _ (ones_ne hn _) hy _ (Or.inl rfl), Except.ok.injEq] at hr
    have hle' : r ≤ Real.sqrt (R / size) := by
      rw [← hr]
      refine Real.sqrt_le_sqrt (max_le (div_nonneg ((Population.diag_nonneg hk (U (f ⟨0, hsize⟩) ω)).trans (hR _)) (by positivity)) (hb.trans ?_))
      refine div_le_div_of_nonneg_right ?_ (by positivity)
      have : 0 ≤ avg (Data.ofArray (K := ℝ) fun i => U i ω).weights fun i => avg (Data.ofArray (K := ℝ) fun i => U i ω).weights fun j =>
          k ((Data.ofArray (K := ℝ) fun i => U i ω).data i) ((Data.ofArray (K := ℝ) fun i => U i ω).data j) := by
        obtain ⟨H, _, _, φ, hφ⟩ := hk.exists_feature
        rw [← inner_embeddings hφ]
        exact real_inner_self_nonneg
      linarith
    have := (abs_le.1 hd).2
    have e' : mmdSqTo k (Data.ofArray (K := ℝ) fun t => U (f t) ω).data (Data.ofArray (K := ℝ) fun t => U (f t) ω).weights P =
      mmdSqTo k (fun t => U (f t) ω) (fun _ => 1) P := rfl
    rw [e'] at this
    linarith

/-! ### The kernels of the library -/

/-- Kernels bounded on the diagonal: everything but linear, polynomial and Stein kernels. -/
def KExpr.BoundedDiag {d : ℕ} : KExpr d → Prop
  | .linear _ _ => False
  | .polynomial _ _ _ => False
  | .stein _ _ => False
  | .power k _ => k.BoundedDiag
  | .add a b => a.BoundedDiag ∧ b.BoundedDiag
  | .mul a b => a.BoundedDiag ∧ b.BoundedDiag
  | _ => True

variable {d : ℕ}

theorem Population.measurable_sqDist : Measurable fun q : Vec d × Vec d => sqDist q.1 q.2 := by
  unfold sqDist
  fun_prop

theorem Population.measurable_nrm : Measurable fun q : Vec d × Vec d => nrm q.1 q.2 := by
  unfold nrm
  fun_prop

theorem Population.measurable_nrm1 : Measurable fun q : Vec d × Vec d => nrm1 q.1 q.2 := by
  unfold nrm1
  fun_prop

/-- **C88.** The kernels of the library to which this applies. -/
theorem C88_kernels (K : KExpr d) (hc : K.check = .ok ()) (hd : K.PsdDomain) (hb : K.BoundedDiag) :
    IsPSD K.sem.compute ∧ (Measurable fun q : Vec d × Vec d => K.sem.compute q.1 q.2) ∧ ∃ R, ∀ x, K.sem.compute x x ≤ R := by
  refine ⟨C08_psd K hc hd, ?_⟩
  induction K with
  | const c => exact ⟨measurable_const, c, fun x => le_rfl⟩
  | linear s c => exact hb.elim
  | polynomial s c n => exact hb.elim
  | exponential l s => 
    refine ⟨?_, s, fun x => ?_⟩
    · show Measurable fun q : Vec d × Vec d => s * Real.exp (-nrm q.1 q.2 / (2 * l ^ 2))
      have := measurable_nrm (d := d)
      fun_prop
    · simp [KExpr.sem, exponentialSem, nrm]
  | laplacian l s =>
    refine ⟨?_, s, fun x => ?_⟩
    · show Measurable fun q : Vec d × Vec d => s * Real.exp (-nrm1 q.1 q.2 / (2 * l ^ 2))
      have := measurable_nrm1 (d := d)
      fun_prop
    · simp [KExpr.sem, laplacianSem, nrm1]
  | squaredExponential l s =>
    refine ⟨?_, s, fun x => ?_⟩
    · show Measurable fun q : Vec d × Vec d => s * Real.exp (-sqDist q.1 q.2 / (2 * l ^ 2))
      have := measurable_sqDist (d := d)
      fun_prop
    · simp [KExpr.sem, squaredExponentialSem, sqDist]
  | pcimq l s =>
    refine ⟨?_, s, fun x => ?_⟩
    · show Measurable fun q : Vec d × Vec d => s / Real.sqrt (1 + sqDist q.1 q.2 / (2 * l ^ 2))
      have := measurable_sqDist (d := d)
      fun_prop
    · simp [KExpr.sem, pcimqSem, sqDist]
  | rationalQuadratic l s a =>
    refine ⟨?_, s, fun x => ?_⟩
    · show Measurable fun q : Vec d × Vec d => s * (1 + sqDist q.1 q.2 / (2 * a * l ^ 2)) ^ (-a)
      have := measurable_sqDist (d := d)
      fun_prop
    · simp [KExpr.sem, rationalQuadraticSem, sqDist]
  | matern l s n =>
    refine ⟨?_, maternCompute l s n.toInt.toNat (0 : Vec d) 0, fun x => le_of_eq ?_⟩
    · show Measurable fun q : Vec d × Vec d => maternCompute l s n.toInt.toNat q.1 q.2
      have := measurable_nrm (d := d)
      unfold maternCompute
      dsimp only
      split <;> fun_prop
    · simp [KExpr.sem, KSem.ofCompute, maternCompute, nrm]
  | periodic l s p =>
    refine ⟨?_, s, fun x => ?_⟩
    · show Measurable fun q : Vec d × Vec d => s * Real.exp (-2 * Real.sin (Real.pi * nrm q.1 q.2 / p) ^ 2 / l ^ 2)
      have := measurable_nrm (d := d)
      fun_prop
    · simp [KExpr.sem, periodicSem, nrm]
  | poisson r s =>
    refine ⟨?_, s / (1 - 2 * r + r ^ 2), fun x => ?_⟩
    · show Measurable fun q : Vec d × Vec d => s / (1 - 2 * r * Real.cos (nrm q.1 q.2) + r ^ 2)
      have := measurable_nrm (d := d)
      fun_prop
    · simp [KExpr.sem, poissonSem, nrm]
  | power k n ih =>
    obtain ⟨h1, R, h2⟩ := ih (bind_ok hc).1 hd hb
    have hn : 0 ≤ n.toInt := le_trans (by norm_num) (checkIntGe_ok (bind_ok hc).2)
    obtain ⟨p, hp⟩ := Int.eq_ofNat_of_zero_le hn
    have e : ∀ x y, (KExpr.power k n).sem.compute x y = k.sem.compute x y ^ p := fun x y => by
      show k.sem.compute x y ^ n.toInt = _
      rw [hp]
      exact zpow_natCast _ _
    simp only [e]
    exact ⟨h1.pow_const p, R ^ p, fun x => pow_le_pow_left₀ (diag_nonneg (C08_psd k (bind_ok hc).1 hd) x) (h2 x) p⟩
  | add a b iha ihb =>
    obtain ⟨h1, R, h2⟩ := iha (bind_ok hc).1 hd.1 hb.1
    obtain ⟨h3, R', h4⟩ := ihb (bind_ok hc).2 hd.2 hb.2
    exact ⟨h1.add h3, R + R', fun x => add_le_add (h2 x) (h4 x)⟩
  | mul a b iha ihb =>
    obtain ⟨h1, R, h2⟩ := iha (bind_ok hc).1 hd.1 hb.1
    obtain ⟨h3, R', h4⟩ := ihb (bind_ok hc).2 hd.2 hb.2
    have e : ∀ x y, (KExpr.mul a b).sem.compute x y = a.sem.compute x y * b.sem.compute x y := fun x y => by
      by_cases h : a = b
      · subst h
        simp [KExpr.sem, mulSem, pow_two]
      · simp [KExpr.sem, mulSem, h]
    simp only [e]
    refine ⟨h1.mul h3, R * R', fun x => ?_⟩
    have p1 := diag_nonneg (C08_psd a (bind_ok hc).1 hd.1) x
    have p2 := diag_nonneg (C08_psd b (bind_ok hc).2 hd.2) x
    exact mul_le_mul (h2 x) (h4 x) p2 (p1.trans (h2 x))
  | stein k s => exact hb.elim

/-! ### Examples -/

namespace Population

theorem sep_sqExp (x y : Vec 2) (h : (KExpr.squaredExponential 1 1 : KExpr 2).sem.compute x x - 2 * (KExpr.squaredExponential 1 1 : KExpr 2).sem.compute x y +
    (KExpr.squaredExponential 1 1 : KExpr 2).sem.compute y y = 0) : x = y := by
  have h0 : ∀ z : Vec 2, sqDist z z = 0 := fun z => by simp [sqDist]
  have h1 : 1 * Real.exp (-sqDist x x / (2 * 1 ^ 2)) - 2 * (1 * Real.exp (-sqDist x y / (2 * 1 ^ 2))) + 1 * Real.exp (-sqDist y y / (2 * 1 ^ 2)) = 0 := h
  rw [h0, h0] at h1
  have h2 : Real.exp (-sqDist x y / (2 * 1 ^ 2)) = 1 := by
    rw [neg_zero, zero_div, Real.exp_zero] at h1
    linarith
  rw [Real.exp_eq_one_iff] at h2
  have h3 : sqDist x y = 0 := by linarith
  funext i
  have := (sum_eq_zero_iff_of_nonneg fun i _ => mul_self_nonneg (x i - y i)).1 h3 i (mem_univ i)
  linarith [mul_self_eq_zero.1 this]

theorem check_sqExp : (KExpr.squaredExponential 1 1 : KExpr 2).check = .ok () := by norm_num [KExpr.check, checkPos, Bind.bind, Except.bind]

theorem diag_sqExp (x : Vec 2) : (KExpr.squaredExponential 1 1 : KExpr 2).sem.compute x x ≤ 1 := by simp [KExpr.sem, squaredExponentialSem, sqDist]

/-- A draw from each of finitely many distributions, on the product space. -/
theorem draws_indep {ι : Type*} [Fintype ι] (P : ι → Measure X) [∀ i, IsProbabilityMeasure (P i)] {i j : ι} (h : i ≠ j) :
    (fun ω : ι → X => ω i) ⟂ᵢ[Measure.pi P] fun ω => ω j :=
  (iIndepFun_pi (X := fun _ : ι => (id : X → X)) (μ := P) fun _ => aemeasurable_id).indepFun h

end Population

section
variable (P Q : Measure (Vec 2)) [IsProbabilityMeasure P] [IsProbabilityMeasure Q]

/-- Five draws from `P` and three from `Q`. -/
instance (i : Fin 5 ⊕ Fin 3) : IsProbabilityMeasure (Sum.elim (fun _ => P) (fun _ => Q) i : Measure (Vec 2)) := by
  cases i <;> simp only [Sum.elim_inl, Sum.elim_inr] <;> infer_instance

example := C88_expected (μ := Measure.pi fun i : Fin 5 ⊕ Fin 3 => Sum.elim (fun _ => P) (fun _ => Q) i) 1 (C08_psd _ check_sqExp trivial)
  (C88_kernels _ check_sqExp trivial trivial).2.1 diag_sqExp (by norm_num) (by norm_num) (fun i ω => ω (.inl i)) (fun j ω => ω (.inr j))
  (fun i => measurable_pi_apply _) (fun j => measurable_pi_apply _) (fun i => (measurePreserving_eval _ _).map_eq)
  (fun j => (measurePreserving_eval _ _).map_eq) (fun i j h => draws_indep _ (by simpa using h)) (fun i j h => draws_indep _ (by simpa using h))
  (fun i j => draws_indep _ (by simp)) (.leaf (some 2)) (Or.inl rfl)

example := C88_consistent (μ := Measure.pi fun i : Fin 5 ⊕ Fin 3 => Sum.elim (fun _ => P) (fun _ => Q) i) (P := P) (Q := Q) 1
  (C08_psd _ check_sqExp trivial) (C88_kernels _ check_sqExp trivial trivial).2.1 diag_sqExp (by norm_num) (by norm_num) (fun i ω => ω (.inl i))
  (fun j ω => ω (.inr j)) (fun i => measurable_pi_apply _) (fun j => measurable_pi_apply _) (fun i => (measurePreserving_eval _ _).map_eq)
  (fun j => (measurePreserving_eval _ _).map_eq) (fun i j h => draws_indep _ (by simpa using h)) (fun i j h => draws_indep _ (by simpa using h))
  (.leaf none) (Or.inl rfl) (ε := 1 / 2) (by norm_num)

example := C88_coreset (μ := Measure.pi fun _ : Fin 5 => P) (P := P) 1 (C08_psd _ check_sqExp trivial)
  (C88_kernels _ check_sqExp trivial trivial).2.1 diag_sqExp (by norm_num) (fun i ω => ω i) (fun i => measurable_pi_apply _)
  (fun i => (measurePreserving_eval _ _).map_eq) (fun i j h => draws_indep _ h)

example := C88_herding (μ := Measure.pi fun _ : Fin 5 => P) (P := P) 1 (C08_psd _ check_sqExp trivial)
  (C88_kernels _ check_sqExp trivial trivial).2.1 diag_sqExp (fun i ω => ω i) (fun i => measurable_pi_apply _)
  (fun i => (measurePreserving_eval _ _).map_eq) (fun i j h => draws_indep _ h) 2 (by norm_num) (by norm_num) (.leaf none) (Or.inl rfl)
  (List.finRange _) (fun t => List.mem_finRange t)

example := C88_integral (P := P) (C08_psd _ check_sqExp trivial) (C88_kernels _ check_sqExp trivial trivial).2.1 diag_sqExp
  ![![0, 1], ![2, 0], ![1, 1]] ![1, 2, 1] ![![0, 0], ![1, 3]] ![1, -2]

example := C88_biased (C08_psd _ check_sqExp trivial) (C88_kernels _ check_sqExp trivial trivial).2.1 diag_sqExp P Q

example := C88_same (C08_psd _ check_sqExp trivial) (C88_kernels _ check_sqExp trivial trivial).2.1 diag_sqExp sep_sqExp P

end

example := C88_kernels (.add (.mul (.matern 1 2 (.int 2)) (.periodic 1 1 2)) (.power (.poisson (1 / 2) 1) (.int 3)) : KExpr 1)
  (by norm_num [KExpr.check, checkPos, checkIntGe, Bind.bind, Except.bind]) ⟨⟨trivial, rfl, by norm_num⟩, rfl⟩ ⟨⟨trivial, trivial⟩, trivial⟩

end Coreax
