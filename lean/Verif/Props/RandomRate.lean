import Verif.Lemmas.PSD
import Verif.Lemmas.SampleMean
import Verif.Props.Random
import Verif.Props.Metrics
import Mathlib.MeasureTheory.Integral.Bochner.Set
import Mathlib.MeasureTheory.Integral.Bochner.Basic
import Mathlib.MeasureTheory.Constructions.Pi

/-!
# C57: the expected MMD of a random sample
-/

set_option linter.unusedSectionVars false

namespace Coreax

open Spec MeasureTheory Sample

/-- What is assumed of the distribution of one call of `jr.choice` over its keys (trusted): the result is a tuple of indices below `n`, and the
tuple `i` has probability `law i`. -/
structure TupleLaw {U : Type} [MeasurableSpace U] {n size : ℕ} (μ : Measure U) (I : U → Fin size → ℤ) (law : (Fin size → Fin n) → ℝ) : Prop where
  range : ∀ u, ∃ i : Fin size → Fin n, ∀ t, I u t = (i t : ℤ)
  meas : ∀ i : Fin size → Fin n, MeasurableSet {u | ∀ t, I u t = (i t : ℤ)}
  prob : ∀ i : Fin size → Fin n, μ.real {u | ∀ t, I u t = (i t : ℤ)} = law i

/-- Drawing with replacement with probabilities proportional to `w`. -/
noncomputable def Spec.independentDraws {n size : ℕ} (w : Fin n → ℝ) (i : Fin size → Fin n) : ℝ := ∏ t, (w (i t) / ∑ j, w j)

/-- Drawing without replacement: all tuples of distinct elements have the same probability; there are `n (n-1) ⋯ (n-size+1)` of them. -/
noncomputable def Spec.distinctDraws {n size : ℕ} (i : Fin size → Fin n) : ℝ :=
  open Classical in if Function.Injective i then 1 / (n.descFactorial size : ℝ) else 0

/-- The mean spread of a weighted dataset in the feature space of the kernel. -/
noncomputable def Spec.spread {X : Type} {n : ℕ} (k : X → X → ℝ) (x : Fin n → X) (w : Fin n → ℝ) : ℝ :=
  avg w (fun a => k (x a) (x a)) - avg w (fun a => avg w fun b => k (x a) (x b))

section
variable {X Y U : Type} [Zero X] [MeasurableSpace U] {μ : Measure U} [IsProbabilityMeasure μ] {n size : ℕ} [NeZero n]

/-- The error of a sample as a random variable: `err u` is the squared MMD computed between the dataset and the sample drawn with key `u`. -/
def IsSampleError (big : ℝ) (k : X → X → ℝ) (weighted unique : Bool) (d : DSet n X Y ℝ) (D : U → Choice n size ℝ) (err : U → ℝ) : Prop :=
  ∀ u, ∃ idx, randomSample weighted unique ⟨n, d⟩ (D u) = .ok ⟨size, n, idx, d⟩ ∧
    ∀ bs, ValidBlock bs → mmdSquared big k d.toData (Coresubset.points (⟨size, n, idx, d⟩ : Coresubset X Y ℝ)).toData bs = .ok (err u)

/-- The mean error is a sum over tuples. -/
theorem sample_mean (big : ℝ) (k : X → X → ℝ) (weighted unique : Bool) (d : DSet n X Y ℝ) (D : U → Choice n size ℝ) (law : (Fin size → Fin n) → ℝ)
    (hlaw : TupleLaw μ (fun u => D u (if weighted then some d.weights else none) (!unique)) law)
    (hs : size ≤ n) (h0 : 0 < size) (hw : ∑ j, d.weights j ≠ 0) :
    ∃ err : U → ℝ, Integrable err μ ∧ IsSampleError big k weighted unique d D err ∧
      ∫ u, err u ∂μ = ∑ i, law i * mmdSq k d.data d.weights (fun t => d.data (i t)) (fun _ => 1) := by
  classical
  choose i hi using hlaw.range
  set g : (Fin size → Fin n) → ℝ := fun i => mmdSq k d.data d.weights (fun t => d.data (i t)) (fun _ => 1) with hg
  have hset : ∀ s, {u | i u = s} = {u | ∀ t, D u (if weighted then some d.weights else none) (!unique) t = (s t : ℤ)} := by
    intro s; ext u
    simp only [Set.mem_ofPred_eq, hi]
    constructor
    · rintro rfl t; rfl
    · intro h; funext t; exact Fin.ext (by exact_mod_cast h t)
  have hmeas : ∀ s, MeasurableSet {u | i u = s} := fun s => by rw [hset s]; exact hlaw.meas s
  have hprob : ∀ s, μ.real {u | i u = s} = law s := fun s => by rw [hset s]; exact hlaw.prob s
  have hdec : ∀ u, g (i u) = ∑ s, {u | i u = s}.indicator (fun _ => g s) u := by
    intro u
    rw [Finset.sum_eq_single (i u)]
    · simp
    · intro s _ hne
      exact Set.indicator_of_notMem (fun h => hne (by exact (show i u = s from h).symm)) _
    · simp
  have hint : ∀ s, Integrable ({u | i u = s}.indicator fun _ => g s) μ := fun s => (integrable_const (g s)).indicator (hmeas s)
  refine ⟨fun u => g (i u), ?_, fun u => ⟨⟨fun t => (i u t : ℤ), fun _ => 1⟩, ?_, fun bs hbs => ?_⟩, ?_⟩
  · simp only [hdec]
    exact integrable_finsetSum _ fun s _ => hint s
  · have hf : choiceFails n size (!unique) = false := by
      have := Nat.pos_of_ne_zero (NeZero.ne n)
      simp [choiceFails]; omega
    have : D u (if weighted then some d.weights else none) (!unique) = fun t => (i u t : ℤ) := funext (hi u)
    simp only [randomSample, hf, Bool.false_eq_true, if_false, Coresubset.init, this]
    rw [if_neg (by omega)]
  · rw [C07_squared big k (Nat.pos_of_ne_zero (NeZero.ne n)) h0 _ _ hw _ bs hbs]
    · simp [Coresubset.points, DSet.getItem, gatherIdx_coe, hg]
    · simp [Coresubset.points]; omega
  · simp only [hdec]
    rw [integral_finsetSum _ fun s _ => hint s]
    refine Finset.sum_congr rfl fun s _ => ?_
    rw [integral_indicator_const _ (hmeas s), hprob, smul_eq_mul]

/-- Sampling with replacement by weight: the sample represents the weighted dataset, with a mean squared MMD of the spread over the size. -/
theorem C57_weighted (big : ℝ) (k : X → X → ℝ) (d : DSet n X Y ℝ) (D : U → Choice n size ℝ)
    (hlaw : TupleLaw μ (fun u => D u (some d.weights) true) (independentDraws d.weights)) (hs : size ≤ n) (h0 : 0 < size) (hw : ∑ j, d.weights j ≠ 0) :
    ∃ err : U → ℝ, Integrable err μ ∧ IsSampleError big k true false d D err ∧ ∫ u, err u ∂μ = spread k d.data d.weights / size := by
  obtain ⟨err, h1, h2, h3⟩ := sample_mean big k true false d D _ (by simpa using hlaw) hs h0 hw
  refine ⟨err, h1, h2, ?_⟩
  have hp : ∑ a, d.weights a / ∑ j, d.weights j = 1 := by rw [← Finset.sum_div, div_self hw]
  have hl : (independentDraws d.weights : (Fin size → Fin n) → ℝ) = fun i => ∏ t, (fun a => d.weights a / ∑ j, d.weights j) (i t) := rfl
  rw [h3, hl, mean_mmdSq k d.data d.weights h0 _ (indep_total hp) (fun a => d.weights a / ∑ j, d.weights j)
    (fun a b => d.weights a / (∑ j, d.weights j) * (d.weights b / ∑ j, d.weights j)) (fun t a => indep_marg hp t a) (fun s t hst a b => indep_marg2 hp hst a b)]
  have e : ∀ f : Fin n → ℝ, ∑ a, d.weights a / (∑ j, d.weights j) * f a = avg d.weights f := by
    intro f
    simp only [avg, div_mul_eq_mul_div, ← Finset.sum_div]
  have hc : (∑ b, d.weights b / (∑ j, d.weights j) * avg d.weights fun a => k (d.data a) (d.data b)) = avg d.weights fun a => avg d.weights fun b => k (d.data a) (d.data b) := by
    rw [e]
    simp only [avg, mul_div_assoc', ← Finset.sum_div, Finset.mul_sum]
    rw [Finset.sum_comm]
    simp only [mul_left_comm]
  rw [hc, e]
  simp only [mul_assoc, ← Finset.mul_sum, e, spread]
  ring

theorem bias_eq (k : X → X → ℝ) (x : Fin n → X) (w : Fin n → ℝ) :
    mmdSq k x w x (fun _ => 1) = avg w (fun a => avg w fun b => k (x a) (x b)) - 2 * (∑ b, 1 / n * avg w fun a => k (x a) (x b))
      + (∑ a, ∑ b, k (x a) (x b)) / n / n := by
  have h := mmdSq_points k x w (id : Fin n → Fin n)
  simp only [id] at h
  rw [h, ← Finset.mul_sum, one_div, inv_mul_eq_div]

theorem spread_one (k : X → X → ℝ) (x : Fin n → X) :
    spread k x (fun _ => 1) = (∑ a, k (x a) (x a)) / n - (∑ a, ∑ b, k (x a) (x b)) / n / n := by
  simp only [spread, avg_one, ← Finset.sum_div]

/-- Sampling with replacement ignoring the weights: beside the spread over the size, the squared MMD between the dataset and the same points with
equal weights remains, whatever the size. -/
theorem C57_uniform (big : ℝ) (k : X → X → ℝ) (d : DSet n X Y ℝ) (D : U → Choice n size ℝ)
    (hlaw : TupleLaw μ (fun u => D u none true) (independentDraws fun _ : Fin n => 1)) (hs : size ≤ n) (h0 : 0 < size) (hw : ∑ j, d.weights j ≠ 0) :
    ∃ err : U → ℝ, Integrable err μ ∧ IsSampleError big k false false d D err ∧
      ∫ u, err u ∂μ = mmdSq k d.data d.weights d.data (fun _ => 1) + spread k d.data (fun _ => 1) / size := by
  obtain ⟨err, h1, h2, h3⟩ := sample_mean big k false false d D _ (by simpa using hlaw) hs h0 hw
  refine ⟨err, h1, h2, ?_⟩
  have hn : (n : ℝ) ≠ 0 := by exact_mod_cast NeZero.ne n
  have hl : (independentDraws fun _ => 1 : (Fin size → Fin n) → ℝ) = fun i => ∏ t, (fun _ : Fin n => 1 / (n : ℝ)) (i t) := by
    funext i; simp [independentDraws]
  have hp : ∑ _a : Fin n, 1 / (n : ℝ) = 1 := by simp [hn]
  rw [h3, hl, mean_mmdSq k d.data d.weights h0 _ (indep_total hp) (fun _ => 1 / (n : ℝ))
    (fun _ _ => 1 / (n : ℝ) * (1 / n)) (fun t a => indep_marg hp t a) (fun s t hst a b => indep_marg2 hp hst a b), bias_eq, spread_one]
  simp only [← Finset.mul_sum]
  have hm : (size : ℝ) ≠ 0 := by positivity
  field_simp
  ring

theorem distinctDraws_distinct (hs : size ≤ n) : Distinct (distinctDraws : (Fin size → Fin n) → ℝ) where
  zero i hi := by simp [distinctDraws, hi]
  equal i j hi hj := by simp [distinctDraws, hi, hj]
  total := by
    classical
    simp only [distinctDraws]
    rw [Finset.sum_ite, Finset.sum_const_zero, add_zero, Finset.sum_const, nsmul_eq_mul]
    have : (Finset.univ.filter fun i : Fin size → Fin n => Function.Injective i).card = n.descFactorial size := by
      rw [← Fintype.card_subtype, ← Fintype.card_congr (Equiv.subtypeInjectiveEquivEmbedding (Fin size) (Fin n)).symm, Fintype.card_embedding_eq]
      simp
    have h2 : (n.descFactorial size : ℝ) ≠ 0 := by
      have := Nat.descFactorial_pos.2 hs
      positivity
    rw [this]
    field_simp

/-- Sampling without replacement ignoring the weights (the default): the spread term shrinks by `(n - size) / (n - 1)` and vanishes for the whole
dataset; the squared MMD between the dataset and the same points with equal weights remains. -/
theorem C57_unique (big : ℝ) (k : X → X → ℝ) (d : DSet n X Y ℝ) (D : U → Choice n size ℝ)
    (hlaw : TupleLaw μ (fun u => D u none false) (distinctDraws (n := n))) (hs : size ≤ n) (h0 : 0 < size) (hw : ∑ j, d.weights j ≠ 0) :
    ∃ err : U → ℝ, Integrable err μ ∧ IsSampleError big k false true d D err ∧
      ∫ u, err u ∂μ = mmdSq k d.data d.weights d.data (fun _ => 1) + (n - size) / (n - 1) * (spread k d.data (fun _ => 1) / size) := by
  obtain ⟨err, h1, h2, h3⟩ := sample_mean big k false true d D _ (by simpa using hlaw) hs h0 hw
  refine ⟨err, h1, h2, ?_⟩
  have hn : (n : ℝ) ≠ 0 := by exact_mod_cast NeZero.ne n
  have hm : (size : ℝ) ≠ 0 := by positivity
  have hd := distinctDraws_distinct hs
  rw [h3, mean_mmdSq k d.data d.weights h0 _ hd.total (fun _ => 1 / (n : ℝ)) _ hd.marg_eq (fun s t hst a b => hd.marg2_eq hst a b), bias_eq, spread_one]
  have hq : ∑ a, ∑ b, (if a = b then (0 : ℝ) else 1 / ((n : ℝ) * (n - 1))) * k (d.data a) (d.data b)
      = 1 / ((n : ℝ) * (n - 1)) * ((∑ a, ∑ b, k (d.data a) (d.data b)) - ∑ a, k (d.data a) (d.data a)) := by
    rw [← Finset.sum_sub_distrib, Finset.mul_sum]
    refine Finset.sum_congr rfl fun a _ => ?_
    rw [← Finset.add_sum_erase _ _ (Finset.mem_univ a), if_pos rfl, zero_mul, zero_add,
      ← Finset.add_sum_erase _ (fun b => k (d.data a) (d.data b)) (Finset.mem_univ a), add_sub_cancel_left, Finset.mul_sum]
    refine Finset.sum_congr rfl fun b hb => ?_
    rw [if_neg (Finset.ne_of_mem_erase hb).symm]
  rw [hq]
  simp only [← Finset.mul_sum]
  by_cases h1n : n = 1
  · subst h1n
    have : size = 1 := by omega
    subst this
    simp
  · have hn1 : (n : ℝ) - 1 ≠ 0 := by
      have : (n : ℝ) ≠ 1 := by exact_mod_cast h1n
      exact sub_ne_zero.2 this
    field_simp
    ring

/-- Sampling all points without replacement, by weight or not, returns every point once with weight one: the weights have no influence, and the
error is that of equal weights. -/
theorem C57_unique_all (big : ℝ) (k : X → X → ℝ) (weighted : Bool) (d : DSet n X Y ℝ) (choice : Choice n n ℝ) (hc : ChoiceContract choice)
    (hw : ∑ j, d.weights j ≠ 0) :
    ∃ σ : Equiv.Perm (Fin n), randomSample weighted true ⟨n, d⟩ choice = .ok ⟨n, n, ⟨fun t => (σ t : ℤ), fun _ => 1⟩, d⟩ ∧
      ∀ bs, ValidBlock bs → mmdSquared big k d.toData (Coresubset.points (⟨n, n, ⟨fun t => (σ t : ℤ), fun _ => 1⟩, d⟩ : Coresubset X Y ℝ)).toData bs
        = .ok (mmdSq k d.data d.weights d.data (fun _ => 1)) := by
  have hn := Nat.pos_of_ne_zero (NeZero.ne n)
  obtain ⟨i, hi, h⟩ := C17_sample weighted true d choice hc hn le_rfl
  refine ⟨Equiv.ofBijective i (Finite.injective_iff_bijective.1 (hi rfl)), h, fun bs hbs => ?_⟩
  rw [C07_squared big k hn hn _ _ hw _ bs hbs]
  · have e : ∀ f : Fin n → ℝ, ∑ t, f (i t) = ∑ t, f t := fun f => Equiv.sum_comp (Equiv.ofBijective i (Finite.injective_iff_bijective.1 (hi rfl))) f
    have h1 := mmdSq_points k d.data d.weights i
    have h2 := mmdSq_points k d.data d.weights (id : Fin n → Fin n)
    rw [e (fun t => avg d.weights fun a => k (d.data a) (d.data t))] at h1
    have h3 : ∑ s, ∑ t, k (d.data (i s)) (d.data (i t)) = ∑ s, ∑ t, k (d.data s) (d.data t) := by
      rw [e (fun s => ∑ t, k (d.data s) (d.data (i t)))]
      exact Finset.sum_congr rfl fun s _ => e (fun t => k (d.data s) (d.data t))
    rw [h3] at h1
    simp only [id] at h2
    simp only [Coresubset.points, DSet.getItem, Equiv.ofBijective_apply, gatherIdx_coe]
    rw [h1, h2]
  · simp [Coresubset.points, NeZero.ne n]

/-- A bound in probability for the default settings and unweighted data: with probability at least `1 - δ` over the keys the squared MMD is below
`B / (size δ)`, where `B` bounds the diagonal of the kernel. -/
theorem C57_tail (big : ℝ) (k : X → X → ℝ) (hk : IsPSD k) (d : DSet n X Y ℝ) (hd : d.weights = fun _ => 1) (D : U → Choice n size ℝ)
    (hlaw : TupleLaw μ (fun u => D u none false) (distinctDraws (n := n))) (hs : size ≤ n) (h0 : 0 < size) {B δ : ℝ} (hB : 0 < B) (hδ : 0 < δ)
    (hb : ∀ j, k (d.data j) (d.data j) ≤ B) :
    ∃ err : U → ℝ, IsSampleError big k false true d D err ∧ μ.real {u | B / (size * δ) ≤ err u} ≤ δ := by
  have hn : (0 : ℝ) < n := by exact_mod_cast Nat.pos_of_ne_zero (NeZero.ne n)
  have hsz : (0 : ℝ) < size := by exact_mod_cast h0
  have hw : ∑ j, d.weights j ≠ 0 := by rw [hd]; simp [NeZero.ne n]
  obtain ⟨err, h1, h2, h3⟩ := C57_unique big k d D hlaw hs h0 hw
  refine ⟨err, h2, ?_⟩
  have hself : mmdSq k d.data d.weights d.data (fun _ => 1) = 0 := by
    rw [hd]; unfold mmdSq; ring
  have hG : 0 ≤ ∑ a, ∑ b, k (d.data a) (d.data b) := by simpa using hk.2 n d.data (fun _ => 1)
  have hT : ∑ a, k (d.data a) (d.data a) ≤ n * B := by
    refine (Finset.sum_le_sum fun a _ => hb a).trans ?_
    simp
  have hspread : spread k d.data (fun _ => 1) ≤ B := by
    rw [spread_one]
    have h4 : (∑ a, k (d.data a) (d.data a)) / n ≤ B := by rw [div_le_iff₀ hn]; linarith
    have h5 : 0 ≤ (∑ a, ∑ b, k (d.data a) (d.data b)) / n / n := by positivity
    linarith
  have hnn : ∀ u, 0 ≤ err u := by
    intro u
    obtain ⟨idx, h4, h5⟩ := h2 u
    have hbs : ValidBlock (.node [.leaf none, .leaf none]) := validBlock_pair none none
    have h6 := h5 _ hbs
    have hidx : idx.weights = fun _ => 1 := by
      simp only [randomSample] at h4
      split at h4
      · simp at h4
      · simp only [Coresubset.init] at h4
        split at h4
        · simp at h4
        · simp only [Except.ok.injEq, Coresubset.mk.injEq, heq_eq_eq, true_and, and_true] at h4
          rw [← h4]
    have hw2 : ∑ i, (Coresubset.points (⟨size, n, idx, d⟩ : Coresubset X Y ℝ)).toData.weights i ≠ 0 := by
      simp [Coresubset.points, hidx]; omega
    rw [C07_squared big k (Nat.pos_of_ne_zero (NeZero.ne n)) h0 _ _ hw hw2 _ hbs] at h6
    rw [← Except.ok.inj h6]
    exact (C07_rkhs_distance big k hk (Nat.pos_of_ne_zero (NeZero.ne n)) h0 _ _ hw hw2 _ hbs).1
  have hmark := mul_meas_ge_le_integral_of_nonneg (Filter.Eventually.of_forall hnn) h1 (B / (size * δ))
  have hE : ∫ u, err u ∂μ ≤ B / size := by
    rw [h3, hself, zero_add]
    have h6 : (n - size : ℝ) / (n - 1) ≤ 1 ∧ 0 ≤ (n - size : ℝ) / (n - 1) := by
      have h7 : (size : ℝ) ≤ n := by exact_mod_cast hs
      have h8 : (1 : ℝ) ≤ size := by exact_mod_cast h0
      exact ⟨div_le_one_of_le₀ (by linarith) (by linarith), div_nonneg (by linarith) (by linarith)⟩
    calc (n - size : ℝ) / (n - 1) * (spread k d.data (fun _ => 1) / size) ≤ (n - size : ℝ) / (n - 1) * (B / size) :=
          mul_le_mul_of_nonneg_left (div_le_div_of_nonneg_right hspread hsz.le) h6.2
      _ ≤ 1 * (B / size) := mul_le_mul_of_nonneg_right h6.1 (by positivity)
      _ = B / size := one_mul _
  have h9 : B / (size * δ) * μ.real {u | B / (size * δ) ≤ err u} ≤ B / (size * δ) * δ := by
    refine hmark.trans (hE.trans (le_of_eq ?_))
    field_simp
  exact le_of_mul_le_mul_left h9 (by positivity)

end

/-! ### The assumption can be met -/

/-- Every law of tuples is the law of some random tuple. -/
theorem tupleLaw_exists {n size : ℕ} (law : (Fin size → Fin n) → ℝ) (h0 : ∀ i, 0 ≤ law i) (h1 : ∑ i, law i = 1) :
    ∃ μ : @Measure (Fin size → Fin n) ⊤, @IsProbabilityMeasure _ ⊤ μ ∧ @TupleLaw (Fin size → Fin n) ⊤ n size μ (fun u t => (u t : ℤ)) law := by
  classical
  letI : MeasurableSpace (Fin size → Fin n) := ⊤
  have hset : ∀ i : Fin size → Fin n, {u : Fin size → Fin n | ∀ t, ((u t : ℕ) : ℤ) = (i t : ℤ)} = {i} := by
    intro i; ext u
    simp only [Set.mem_ofPred_eq, Set.mem_singleton_iff]
    constructor
    · intro h; funext t; exact Fin.ext (by exact_mod_cast h t)
    · rintro rfl t; rfl
  refine ⟨∑ i, ENNReal.ofReal (law i) • Measure.dirac i, ⟨?_⟩, fun u => ⟨u, fun _ => rfl⟩, fun i => trivial, fun i => ?_⟩
  · simp only [Measure.coe_finset_sum, Finset.sum_apply, Measure.smul_apply, measure_univ, smul_eq_mul, mul_one]
    rw [← ENNReal.ofReal_sum_of_nonneg fun i _ => h0 i, h1, ENNReal.ofReal_one]
  · rw [hset i, Measure.real]
    simp only [Measure.coe_finset_sum, Finset.sum_apply, Measure.smul_apply, smul_eq_mul]
    rw [Finset.sum_eq_single i]
    · simp [h0 i]
    · intro j _ hj; simp [hj]
    · simp

/-- The three laws above can be met. -/
theorem sample_laws {n size : ℕ} [NeZero n] (hs : size ≤ n) (w : Fin n → ℝ) (hw : ∀ j, 0 ≤ w j) (hsum : ∑ j, w j ≠ 0) :
    (∃ μ : @Measure (Fin size → Fin n) ⊤, @IsProbabilityMeasure _ ⊤ μ ∧ @TupleLaw _ ⊤ n size μ (fun u t => (u t : ℤ)) (independentDraws w)) ∧
    (∃ μ : @Measure (Fin size → Fin n) ⊤, @IsProbabilityMeasure _ ⊤ μ ∧ @TupleLaw _ ⊤ n size μ (fun u t => (u t : ℤ)) distinctDraws) := by
  refine ⟨tupleLaw_exists _ (fun i => Finset.prod_nonneg fun t _ => div_nonneg (hw _) (Finset.sum_nonneg fun j _ => hw j)) ?_,
    tupleLaw_exists _ (fun i => ?_) (distinctDraws_distinct hs).total⟩
  · exact indep_total (p := fun a => w a / ∑ j, w j) (by rw [← Finset.sum_div, div_self hsum])
  · unfold distinctDraws; split_ifs <;> positivity

/-- Two points `0`, `1` of weights `3`, `1` and the product kernel: a sample of one point drawn by weight has a mean squared MMD of `3/16`. -/
example : ∃ (U : Type) (_ : MeasurableSpace U) (μ : Measure U) (_ : IsProbabilityMeasure μ) (D : U → Choice 2 1 ℝ) (err : U → ℝ),
    IsSampleError 1000 (fun a b : ℝ => a * b) true false (⟨⟨![0, 1], ![3, 1]⟩, none⟩ : DSet 2 ℝ ℝ ℝ) D err ∧ ∫ u, err u ∂μ = 3 / 16 := by
  obtain ⟨⟨μ, hμ, hlaw⟩, -⟩ := sample_laws (n := 2) (size := 1) (by norm_num) ![3, 1] (by intro j; fin_cases j <;> simp) (by norm_num [Fin.sum_univ_two])
  letI : MeasurableSpace (Fin 1 → Fin 2) := ⊤
  obtain ⟨err, -, h2, h3⟩ := C57_weighted (X := ℝ) (Y := ℝ) 1000 (fun a b : ℝ => a * b) ⟨⟨![0, 1], ![3, 1]⟩, none⟩ (fun (u : Fin 1 → Fin 2) _ _ t => (u t : ℤ)) hlaw (by norm_num) one_pos
    (by norm_num [Fin.sum_univ_two])
  refine ⟨_, _, μ, hμ, _, err, h2, ?_⟩
  rw [h3]
  norm_num [spread, avg, Fin.sum_univ_two]

/-- The same data sampled without regard to the weights: the bias `1/16` stays even when both points are taken. -/
example : ∃ (U : Type) (_ : MeasurableSpace U) (μ : Measure U) (_ : IsProbabilityMeasure μ) (D : U → Choice 2 2 ℝ) (err : U → ℝ),
    IsSampleError 1000 (fun a b : ℝ => a * b) false true (⟨⟨![0, 1], ![3, 1]⟩, none⟩ : DSet 2 ℝ ℝ ℝ) D err ∧ ∫ u, err u ∂μ = 1 / 16 := by
  obtain ⟨-, ⟨μ, hμ, hlaw⟩⟩ := sample_laws (n := 2) (size := 2) le_rfl ![3, 1] (by intro j; fin_cases j <;> simp) (by norm_num [Fin.sum_univ_two])
  letI : MeasurableSpace (Fin 2 → Fin 2) := ⊤
  obtain ⟨err, -, h2, h3⟩ := C57_unique (X := ℝ) (Y := ℝ) 1000 (fun a b : ℝ => a * b) ⟨⟨![0, 1], ![3, 1]⟩, none⟩ (fun (u : Fin 2 → Fin 2) _ _ t => (u t : ℤ)) hlaw le_rfl two_pos
    (by norm_num [Fin.sum_univ_two])
  refine ⟨_, _, μ, hμ, _, err, h2, ?_⟩
  rw [h3]
  norm_num [mmdSq, spread, avg, Fin.sum_univ_two]

/-- Two draws without regard to the weights, with replacement. -/
example : ∃ (U : Type) (_ : MeasurableSpace U) (μ : Measure U) (_ : IsProbabilityMeasure μ) (D : U → Choice 2 2 ℝ) (err : U → ℝ),
    IsSampleError 1000 (fun a b : ℝ => a * b) false false (⟨⟨![0, 1], ![3, 1]⟩, none⟩ : DSet 2 ℝ ℝ ℝ) D err ∧ ∫ u, err u ∂μ = 3 / 16 := by
  obtain ⟨⟨μ, hμ, hlaw⟩, -⟩ := sample_laws (n := 2) (size := 2) le_rfl (fun _ => 1) (by simp) (by norm_num [Fin.sum_univ_two])
  letI : MeasurableSpace (Fin 2 → Fin 2) := ⊤
  obtain ⟨err, -, h2, h3⟩ := C57_uniform (X := ℝ) (Y := ℝ) 1000 (fun a b : ℝ => a * b) ⟨⟨![0, 1], ![3, 1]⟩, none⟩ (fun (u : Fin 2 → Fin 2) _ _ t => (u t : ℤ)) hlaw le_rfl (by norm_num)
    (by norm_num [Fin.sum_univ_two])
  refine ⟨_, _, μ, hμ, _, err, h2, ?_⟩
  rw [h3]
  norm_num [mmdSq, spread, avg, Fin.sum_univ_two]

example := C57_unique_all (Y := ℝ) 1000 (fun a b : ℝ => a * b) true (⟨⟨![0, 1], ![3, 1]⟩, none⟩ : DSet 2 ℝ ℝ ℝ) firstChoice firstChoice_contract (by norm_num [Fin.sum_univ_two])

example : ∃ (U : Type) (_ : MeasurableSpace U) (μ : Measure U) (D : U → Choice 3 2 ℝ) (err : U → ℝ),
    IsSampleError 1000 (fun a b : ℝ => a * b) false true (⟨⟨![0, 1, 2], fun _ => 1⟩, none⟩ : DSet 3 ℝ ℝ ℝ) D err ∧ μ.real {u | 4 / ((2 : ℕ) * (1 / 10)) ≤ err u} ≤ 1 / 10 := by
  obtain ⟨-, ⟨μ, hμ, hlaw⟩⟩ := sample_laws (n := 3) (size := 2) (by norm_num) (fun _ => 1) (by simp) (by simp)
  letI : MeasurableSpace (Fin 2 → Fin 3) := ⊤
  obtain ⟨err, h1, h2⟩ := C57_tail (X := ℝ) (Y := ℝ) 1000 (fun a b : ℝ => a * b) (isPSD_rankOne fun x => x) ⟨⟨![0, 1, 2], fun _ => 1⟩, none⟩ rfl (fun (u : Fin 2 → Fin 3) _ _ t => (u t : ℤ)) hlaw
    (by norm_num) (by norm_num) (B := 4) (δ := 1 / 10) (by norm_num) (by norm_num) (fun j => by fin_cases j <;> norm_num)
  exact ⟨_, _, μ, _, err, h1, h2⟩

end Coreax
