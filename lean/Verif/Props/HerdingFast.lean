import Verif.Props.HerdingRate
import Verif.Lemmas.PSD
import Verif.Lemmas.MapReduceMean

/-!
# C71: kernel herding at the fast rate

`C48` bounds the squared discrepancy of `T` herded points by a constant over `T`, for every data set. When the data spread out in every
direction of feature space that they span, with variance at least `lam`, the constant over `T ^ 2` holds.
-/

set_option linter.unusedSectionVars false

namespace Coreax

open Greedy Spec RealInnerProductSpace

variable {X : Type*} {n : ℕ}

namespace Spec

/-- Inner product of the centred features of points `i` and `j`. -/
noncomputable def centred (k : X → X → ℝ) (x : Fin n → X) (w : Fin n → ℝ) (i j : Fin n) : ℝ :=
  k (x i) (x j) - avg w (fun l => k (x l) (x i)) - avg w (fun l => k (x l) (x j)) + avg w fun l => avg w fun q => k (x l) (x q)

/-- Every combination of the centred features varies over the data with variance at least `lam` times its squared norm. -/
def SpreadAtLeast (k : X → X → ℝ) (x : Fin n → X) (w : Fin n → ℝ) (lam : ℝ) : Prop :=
  ∀ c : Fin n → ℝ, lam * ∑ i, ∑ j, c i * c j * centred k x w i j ≤ avg w fun i => (∑ j, c j * centred k x w i j) ^ 2

end Spec

namespace Fast

section Hilbert

variable {H : Type*} [NormedAddCommGroup H] [InnerProductSpace ℝ H]

/-- One step: the chosen direction `v` beats `u`, and `u` points against the error `e` with margin `r`. -/
theorem step (e μ p q : H) (r R : ℝ) (hp : ‖p‖ ^ 2 ≤ R) (hq : ‖q‖ ^ 2 ≤ R) (hμ : ‖μ‖ ^ 2 ≤ R)
    (hbest : ⟪μ - e, q⟫ ≤ ⟪μ - e, p⟫) (hmargin : r * ‖e‖ ≤ ⟪-e, q - μ⟫) :
    ‖e + (p - μ)‖ ^ 2 ≤ ‖e‖ ^ 2 - 2 * (r * ‖e‖) + 4 * R := by
  have h1 : ‖e + (p - μ)‖ ^ 2 = ‖e‖ ^ 2 + 2 * ⟪e, p - μ⟫ + ‖p - μ‖ ^ 2 := norm_add_sq_real _ _
  have h2 : ‖p - μ‖ ^ 2 = ‖p‖ ^ 2 - 2 * ⟪p, μ⟫ + ‖μ‖ ^ 2 := norm_sub_sq_real _ _
  have h3 : 0 ≤ ‖q + μ‖ ^ 2 := sq_nonneg _
  rw [norm_add_sq_real] at h3
  simp only [inner_sub_left, inner_sub_right, inner_neg_left] at hbest hmargin
  rw [h1, h2, inner_sub_right, real_inner_comm μ p]
  rw [real_inner_comm μ q] at h3
  have h4 : ⟪μ, μ⟫ = ‖μ‖ ^ 2 := real_inner_self_eq_norm_sq _
  linarith

/-- The recursion of the squared error stays below `b ^ 2` where `b r = 2 R`. -/
theorem bounded (E : ℕ → ℝ) (r R b : ℝ) (hb : 0 ≤ b) (hbr : b * r = 2 * R) (hRb : 4 * R ≤ b ^ 2) (N : ℕ) (h0 : E 0 = 0)
    (hE : ∀ m, 0 ≤ E m) (hstep : ∀ m < N, E (m + 1) ^ 2 ≤ E m ^ 2 - 2 * (r * E m) + 4 * R) (m : ℕ) (hm : m ≤ N) :
    E m ^ 2 ≤ b ^ 2 := by
  induction m with
  | zero => rw [h0]; nlinarith [sq_nonneg b]
  | succ m ih =>
    have h1 := abs_le_of_sq_le_sq (ih (by omega)) hb
    have h2 := hstep m (by omega)
    have h3 := hE m
    rw [abs_of_nonneg h3] at h1
    -- the right side is convex in `E m`, at most `b ^ 2` at both ends of `[0, b]`
    have h4 : E m * (b - E m) ≥ 0 := mul_nonneg h3 (by linarith)
    by_cases hc : b ≤ 2 * r
    · nlinarith [mul_nonneg h3 (sub_nonneg.2 hc)]
    · push Not at hc
      nlinarith [mul_nonneg (sub_nonneg.2 h1) (sub_nonneg.2 hc.le)]

end Hilbert

/-- Numbers of non-negative total, bounded below by `-A`, whose squares have total at least `s`: one of them is large. -/
theorem exists_large {ι : Type*} (S : Finset ι) (c a : ι → ℝ) (hc : ∀ i ∈ S, 0 ≤ c i) (hS : ∃ i ∈ S, 0 < c i) (A : ℝ)
    (hA : ∀ i ∈ S, |a i| ≤ A) (hsum : 0 ≤ ∑ i ∈ S, c i * a i) :
    ∃ j ∈ S, 0 < c j ∧ 0 ≤ a j ∧ ∑ i ∈ S, c i * a i ^ 2 ≤ A * a j * ∑ i ∈ S, c i := by
  classical
  obtain ⟨i0, hi0, hci0⟩ := hS
  obtain ⟨j, hj, hmax⟩ := (S.filter fun i => 0 < c i).exists_max_image a ⟨i0, Finset.mem_filter.2 ⟨hi0, hci0⟩⟩
  obtain ⟨hjS, hjc⟩ := Finset.mem_filter.1 hj
  have hle : ∀ i ∈ S, c i * a i ≤ c i * a j := by
    intro i hi
    rcases (hc i hi).eq_or_lt with h | h
    · rw [← h]; simp
    · exact mul_le_mul_of_nonneg_left (hmax i (Finset.mem_filter.2 ⟨hi, h⟩)) h.le
  have htot : 0 < ∑ i ∈ S, c i := Finset.sum_pos' hc ⟨i0, hi0, hci0⟩
  have hj0 : 0 ≤ a j := by
    have h1 : ∑ i ∈ S, c i * a i ≤ (∑ i ∈ S, c i) * a j := by
      rw [Finset.sum_mul]
      exact Finset.sum_le_sum hle
    by_contra hneg
    push Not at hneg
    nlinarith
  refine ⟨j, hjS, hjc, hj0, ?_⟩
  have hjA : a j ≤ A := (le_abs_self _).trans (hA j hjS)
  have h2 : ∑ i ∈ S, c i * a i ^ 2 ≤ ∑ i ∈ S, (A * a j * c i - (A - a j) * (c i * a i)) := by
    refine Finset.sum_le_sum fun i hi => ?_
    have h3 := neg_abs_le (a i)
    have h4 := hA i hi
    have h5 := hle i hi
    have h6 : 0 ≤ a i + A := by linarith
    nlinarith [mul_nonneg h6 (sub_nonneg.2 h5)]
  rw [Finset.sum_sub_distrib, ← Finset.mul_sum, ← Finset.mul_sum] at h2
  nlinarith [mul_nonneg (sub_nonneg.2 hjA) hsum]

section Feature

variable {H : Type*} [NormedAddCommGroup H] [InnerProductSpace ℝ H]

/-- Error of the first `m` points, summed: `Σ_{t<m} (φ(x_{g t}) - μ)`. -/
noncomputable def err (φ : X → H) (x : Fin n → X) (w : Fin n → ℝ) (g : ℕ → Fin n) (m : ℕ) : H :=
  ∑ t ∈ Finset.range m, (φ (x (g t)) - meanEmbedding φ x w)

theorem meanAt_eq (φ : X → H) (x : Fin n → X) (w : Fin n → ℝ) (p : H) (f : Fin n → ℝ)
    (hf : ∀ l, f l = ⟪φ (x l), p⟫) : avg w f = ⟪meanEmbedding φ x w, p⟫ := by
  unfold avg meanEmbedding
  simp only [inner_smul_left, sum_inner, RCLike.conj_to_real, hf]
  rw [div_eq_inv_mul]

theorem centred_eq (k : X → X → ℝ) (φ : X → H) (hk : ∀ a b, k a b = ⟪φ a, φ b⟫) (x : Fin n → X) (w : Fin n → ℝ) (i j : Fin n) :
    centred k x w i j = ⟪φ (x i) - meanEmbedding φ x w, φ (x j) - meanEmbedding φ x w⟫ := by
  unfold centred
  rw [meanAt_eq φ x w (φ (x i)) _ (fun l => hk _ _), meanAt_eq φ x w (φ (x j)) _ (fun l => hk _ _),
    meanAt_eq φ x w (meanEmbedding φ x w) _ (fun l => by
      rw [real_inner_comm]
      exact meanAt_eq φ x w (φ (x l)) _ fun q => by rw [hk, real_inner_comm])]
  simp only [inner_sub_left, inner_sub_right, hk]
  rw [real_inner_comm (φ (x i)) (meanEmbedding φ x w)]
  ring

theorem avg_centred (φ : X → H) (x : Fin n → X) (w : Fin n → ℝ) (hW : ∑ j, w j ≠ 0) (e : H) :
    ∑ i, w i * ⟪e, φ (x i) - meanEmbedding φ x w⟫ = 0 := by
  have h : ∑ i, w i * ⟪e, φ (x i) - meanEmbedding φ x w⟫ = ⟪e, ∑ i, w i • φ (x i)⟫ - (∑ i, w i) * ⟪e, meanEmbedding φ x w⟫ := by
    simp only [inner_sub_right, mul_sub, Finset.sum_sub_distrib, inner_sum, inner_smul_right, ← Finset.sum_mul]
  rw [h, meanEmbedding, inner_smul_right, ← mul_assoc, mul_inv_cancel₀ hW, one_mul, sub_self]

theorem err_succ (φ : X → H) (x : Fin n → X) (w : Fin n → ℝ) (g : ℕ → Fin n) (m : ℕ) :
    err φ x w g (m + 1) = err φ x w g m + (φ (x (g m)) - meanEmbedding φ x w) := Finset.sum_range_succ _ _

theorem score_eq (k : X → X → ℝ) (φ : X → H) (hk : ∀ a b, k a b = ⟪φ a, φ b⟫) (x : Fin n → X) (w : Fin n → ℝ) (g : ℕ → Fin n)
    (m : ℕ) (j : Fin n) : Rate.score k x w g m j = ⟪meanEmbedding φ x w - err φ x w g m, φ (x j)⟫ := by
  unfold Rate.score Rate.meanAt err
  rw [meanAt_eq φ x w (φ (x j)) _ (fun l => hk _ _)]
  simp only [Finset.sum_sub_distrib, Finset.sum_const, Finset.card_range, inner_sub_left, sum_inner, hk,
    ← Nat.cast_smul_eq_nsmul ℝ, inner_smul_left, RCLike.conj_to_real]
  rw [Finset.sum_congr rfl fun t _ => real_inner_comm (φ (x (g t))) (φ (x j))]
  ring

/-- The spread in feature space, in the direction of a combination of the data. -/
theorem spread_comb (k : X → X → ℝ) (φ : X → H) (hk : ∀ a b, k a b = ⟪φ a, φ b⟫) (x : Fin n → X) (w : Fin n → ℝ) (lam : ℝ)
    (h : SpreadAtLeast k x w lam) (c : Fin n → ℝ) (e : H) (he : e = ∑ l, c l • (φ (x l) - meanEmbedding φ x w)) :
    lam * ‖e‖ ^ 2 ≤ avg w fun i => ⟪-e, φ (x i) - meanEmbedding φ x w⟫ ^ 2 := by
  have hh := h c
  simp only [centred_eq k φ hk] at hh
  have e1 : ‖e‖ ^ 2 = ∑ i, ∑ j, c i * c j * ⟪φ (x i) - meanEmbedding φ x w, φ (x j) - meanEmbedding φ x w⟫ := by
    rw [← real_inner_self_eq_norm_sq, he, sum_inner]
    refine Finset.sum_congr rfl fun i _ => ?_
    rw [inner_sum]
    refine Finset.sum_congr rfl fun j _ => ?_
    rw [inner_smul_left, inner_smul_right, RCLike.conj_to_real]
    ring
  have e2 : ∀ i, ⟪-e, φ (x i) - meanEmbedding φ x w⟫ ^ 2
      = (∑ j, c j * ⟪φ (x i) - meanEmbedding φ x w, φ (x j) - meanEmbedding φ x w⟫) ^ 2 := by
    intro i
    rw [inner_neg_left, neg_sq, he, sum_inner]
    congr 1
    refine Finset.sum_congr rfl fun j _ => ?_
    rw [inner_smul_left, RCLike.conj_to_real, real_inner_comm]
  rw [e1]
  simp only [e2]
  exact hh

theorem spread_err (k : X → X → ℝ) (φ : X → H) (hk : ∀ a b, k a b = ⟪φ a, φ b⟫) (x : Fin n → X) (w : Fin n → ℝ) (lam : ℝ)
    (h : SpreadAtLeast k x w lam) (g : ℕ → Fin n) (m : ℕ) :
    lam * ‖err φ x w g m‖ ^ 2 ≤ avg w fun i => ⟪-err φ x w g m, φ (x i) - meanEmbedding φ x w⟫ ^ 2 := by
  refine spread_comb k φ hk x w lam h (fun l => ∑ t ∈ Finset.range m, if g t = l then (1 : ℝ) else 0) _ ?_
  simp only [Finset.sum_smul, ite_smul, one_smul, zero_smul]
  rw [Finset.sum_comm]
  exact Finset.sum_congr rfl fun t _ => by simp

/-- The spread cannot exceed the largest kernel value. -/
theorem spread_le (k : X → X → ℝ) (φ : X → H) (hk : ∀ a b, k a b = ⟪φ a, φ b⟫) (x : Fin n → X) (w : Fin n → ℝ) (hw : ∀ j, 0 ≤ w j)
    (hW : 0 < ∑ j, w j) (R : ℝ) (hR : ∀ j, 0 < w j → k (x j) (x j) ≤ R) (lam : ℝ) (h : SpreadAtLeast k x w lam) (g : ℕ → Fin n) (m : ℕ)
    (hne : err φ x w g m ≠ 0) : lam ≤ R := by
  have h1 := spread_err k φ hk x w lam h g m
  set e := err φ x w g m
  set μ := meanEmbedding φ x w with hμ
  have hpos : 0 < ‖e‖ ^ 2 := by positivity
  refine le_of_mul_le_mul_right (h1.trans ?_) hpos
  unfold avg
  rw [div_le_iff₀ hW]
  have h2 : ∀ i, w i * ⟪-e, φ (x i) - μ⟫ ^ 2 ≤ ‖e‖ ^ 2 * (w i * R - w i * ‖μ‖ ^ 2 - 2 * (w i * ⟪μ, φ (x i) - μ⟫)) := by
    intro i
    have h3 : ⟪-e, φ (x i) - μ⟫ ^ 2 ≤ ‖e‖ ^ 2 * ‖φ (x i) - μ‖ ^ 2 := by
      have := abs_real_inner_le_norm (-e) (φ (x i) - μ)
      rw [norm_neg] at this
      rw [← mul_pow, ← sq_abs]
      exact pow_le_pow_left₀ (abs_nonneg _) this 2
    have h4 : ‖φ (x i) - μ‖ ^ 2 = k (x i) (x i) - ‖μ‖ ^ 2 - 2 * ⟪μ, φ (x i) - μ⟫ := by
      rw [norm_sub_sq_real, hk, real_inner_self_eq_norm_sq, inner_sub_right, real_inner_self_eq_norm_sq, real_inner_comm]
      ring
    rcases (hw i).eq_or_lt with h0 | h0
    · rw [← h0]; simp
    · have h5 := hR i h0
      have h6 := mul_le_mul_of_nonneg_left h3 h0.le
      refine h6.trans ?_
      rw [h4]
      have := mul_le_mul_of_nonneg_left h5 (mul_nonneg h0.le hpos.le)
      linarith
  refine (Finset.sum_le_sum fun i _ => h2 i).trans ?_
  rw [← Finset.mul_sum, Finset.sum_sub_distrib, Finset.sum_sub_distrib, ← Finset.sum_mul, ← Finset.sum_mul, ← Finset.mul_sum,
    avg_centred φ x w hW.ne']
  nlinarith [mul_nonneg hpos.le (mul_nonneg hW.le (sq_nonneg ‖μ‖))]

theorem norm_mean_le (k : X → X → ℝ) (φ : X → H) (hk : ∀ a b, k a b = ⟪φ a, φ b⟫) (x : Fin n → X) (w : Fin n → ℝ) (hw : ∀ j, 0 ≤ w j)
    (hW : 0 < ∑ j, w j) (R : ℝ) (hR : ∀ j, 0 < w j → k (x j) (x j) ≤ R) : ‖meanEmbedding φ x w‖ ^ 2 ≤ R := by
  have h1 : ∑ i, w i * ‖φ (x i) - meanEmbedding φ x w‖ ^ 2
      ≤ ∑ i, (w i * R - w i * ‖meanEmbedding φ x w‖ ^ 2 - 2 * (w i * ⟪meanEmbedding φ x w, φ (x i) - meanEmbedding φ x w⟫)) := by
    refine Finset.sum_le_sum fun i _ => ?_
    have h4 : ‖φ (x i) - meanEmbedding φ x w‖ ^ 2
        = k (x i) (x i) - ‖meanEmbedding φ x w‖ ^ 2 - 2 * ⟪meanEmbedding φ x w, φ (x i) - meanEmbedding φ x w⟫ := by
      rw [norm_sub_sq_real, hk, real_inner_self_eq_norm_sq, inner_sub_right, real_inner_self_eq_norm_sq, real_inner_comm]
      ring
    rw [h4]
    rcases (hw i).eq_or_lt with h0 | h0
    · rw [← h0]; simp
    · have := mul_le_mul_of_nonneg_left (hR i h0) h0.le
      linarith
  have h2 : 0 ≤ ∑ i, w i * ‖φ (x i) - meanEmbedding φ x w‖ ^ 2 := Finset.sum_nonneg fun i _ => mul_nonneg (hw i) (sq_nonneg _)
  rw [Finset.sum_sub_distrib, Finset.sum_sub_distrib, ← Finset.sum_mul, ← Finset.sum_mul, ← Finset.mul_sum,
    avg_centred φ x w hW.ne'] at h1
  have h3 : 0 ≤ (∑ i, w i) * (R - ‖meanEmbedding φ x w‖ ^ 2) := by linarith
  have := nonneg_of_mul_nonneg_right h3 hW
  linarith

/-- Some point of `S` points against the error. -/
theorem margin (k : X → X → ℝ) (φ : X → H) (hk : ∀ a b, k a b = ⟪φ a, φ b⟫) (x : Fin n → X) (w : Fin n → ℝ) (hw : ∀ j, 0 ≤ w j)
    (hW : 0 < ∑ j, w j) (R : ℝ) (hR : ∀ j, 0 < w j → k (x j) (x j) ≤ R) (κ : ℝ) (e : H) (S : Finset (Fin n))
    (hS : ∀ i ∈ S, 0 < w i) (hne : S.Nonempty) (hsum : 0 ≤ ∑ i ∈ S, w i * ⟪-e, φ (x i) - meanEmbedding φ x w⟫)
    (hsq : κ * ‖e‖ ^ 2 * ∑ i ∈ S, w i ≤ ∑ i ∈ S, w i * ⟪-e, φ (x i) - meanEmbedding φ x w⟫ ^ 2) :
    ∃ j ∈ S, κ / (2 * √R) * ‖e‖ ≤ ⟪-e, φ (x j) - meanEmbedding φ x w⟫ := by
  have hμ := norm_mean_le k φ hk x w hw hW R hR
  have hR0 : 0 ≤ R := (sq_nonneg _).trans hμ
  have hnorm : ∀ i ∈ S, ‖φ (x i) - meanEmbedding φ x w‖ ≤ 2 * √R := by
    intro i hi
    have h1 : ‖φ (x i)‖ ≤ √R := by
      refine Real.le_sqrt_of_sq_le ?_
      rw [← real_inner_self_eq_norm_sq, ← hk]
      exact hR i (hS i hi)
    have h2 := Real.le_sqrt_of_sq_le hμ
    have := norm_sub_le (φ (x i)) (meanEmbedding φ x w)
    linarith
  have hA : ∀ i ∈ S, |⟪-e, φ (x i) - meanEmbedding φ x w⟫| ≤ 2 * √R * ‖e‖ := by
    intro i hi
    refine (abs_real_inner_le_norm _ _).trans ?_
    rw [norm_neg, mul_comm]
    exact mul_le_mul_of_nonneg_right (hnorm i hi) (norm_nonneg _)
  obtain ⟨i0, hi0⟩ := hne
  obtain ⟨j, hj, -, hj0, hlarge⟩ := exists_large S w (fun i => ⟪-e, φ (x i) - meanEmbedding φ x w⟫) (fun i hi => (hS i hi).le)
    ⟨i0, hi0, hS i0 hi0⟩ _ hA hsum
  refine ⟨j, hj, ?_⟩
  have hSW : 0 < ∑ i ∈ S, w i := Finset.sum_pos' (fun i hi => (hS i hi).le) ⟨i0, hi0, hS i0 hi0⟩
  have h1 := le_of_mul_le_mul_right (hsq.trans hlarge) hSW
  rcases eq_or_ne e 0 with he | he
  · simp [he]
  rcases hR0.eq_or_lt with hR1 | hR1
  · rw [← hR1]; simpa using hj0
  have hs : 0 < 2 * √R := by positivity
  have he' : 0 < ‖e‖ := norm_pos_iff.2 he
  rw [div_mul_eq_mul_div, div_le_iff₀ hs]
  refine le_of_mul_le_mul_right ?_ he'
  linarith [h1, sq ‖e‖]

/-- The error of a greedy run stays bounded when some allowed point always has the margin. -/
theorem err_bounded (k : X → X → ℝ) (φ : X → H) (hk : ∀ a b, k a b = ⟪φ a, φ b⟫) (x : Fin n → X) (w : Fin n → ℝ) (hw : ∀ j, 0 ≤ w j)
    (hW : 0 < ∑ j, w j) (R : ℝ) (hR : ∀ j, 0 < w j → k (x j) (x j) ≤ R) (κ : ℝ) (hκ : 0 < κ) (hκR : κ ≤ 2 * R) (g : ℕ → Fin n) (N : ℕ)
    (hpos : ∀ i < N, 0 < w (g i))
    (h : ∀ i < N, ∃ j, 0 < w j ∧ κ / (2 * √R) * ‖err φ x w g i‖ ≤ ⟪-err φ x w g i, φ (x j) - meanEmbedding φ x w⟫ ∧
      Rate.score k x w g i j ≤ Rate.score k x w g i (g i)) :
    ‖err φ x w g N‖ ^ 2 ≤ 16 * R ^ 3 / κ ^ 2 := by
  have hR0 : 0 < R := by linarith
  have hs : 0 < √R := Real.sqrt_pos.2 hR0
  have hss : √R ^ 2 = R := Real.sq_sqrt hR0.le
  have hb : (4 * R * √R / κ) ^ 2 = 16 * R ^ 3 / κ ^ 2 := by
    rw [div_pow, mul_pow, hss]; ring
  rw [← hb]
  refine bounded (fun m => ‖err φ x w g m‖) (κ / (2 * √R)) R (4 * R * √R / κ) (by positivity) ?_ ?_ N (by simp [err])
    (fun m => norm_nonneg _) (fun m hm => ?_) N le_rfl
  · field_simp
    ring
  · rw [hb, le_div_iff₀ (by positivity)]
    nlinarith [mul_nonneg hR0.le (sq_nonneg κ), mul_nonneg hR0.le (mul_nonneg (sub_nonneg.2 hκR) (by linarith : 0 ≤ 2 * R + κ))]
  · obtain ⟨j, hj, hm1, hm2⟩ := h m hm
    rw [score_eq k φ hk, score_eq k φ hk] at hm2
    simp only [err_succ]
    have hn : ∀ i, 0 < w i → ‖φ (x i)‖ ^ 2 ≤ R := fun i hi => by
      rw [← real_inner_self_eq_norm_sq, ← hk]; exact hR i hi
    exact step _ _ _ _ _ R (hn _ (hpos m hm)) (hn j hj) (norm_mean_le k φ hk x w hw hW R hR) hm2 hm1

theorem mmd_err (k : X → X → ℝ) (φ : X → H) (hk : ∀ a b, k a b = ⟪φ a, φ b⟫) (x : Fin n → X) (w : Fin n → ℝ) {T : ℕ} (hT : 0 < T)
    (f : Fin T → Fin n) (g : ℕ → Fin n) (hg : ∀ t : Fin T, g t = f t) :
    mmdSq k x w (fun t => x (f t)) (fun _ => 1) = ‖err φ x w g T‖ ^ 2 / (T : ℝ) ^ 2 := by
  have hT' : (T : ℝ) ≠ 0 := by positivity
  rw [mmdSq_eq_norm φ hk]
  have : err φ x w g T = -((T : ℝ) • (meanEmbedding φ x w - meanEmbedding φ (fun t => x (f t)) fun _ => 1)) := by
    unfold err
    rw [Finset.sum_range, Finset.sum_congr rfl fun t _ => by rw [hg t]]
    simp only [Finset.sum_sub_distrib, Finset.sum_const, Finset.card_univ, Fintype.card_fin, ← Nat.cast_smul_eq_nsmul ℝ, smul_sub]
    conv_rhs => unfold meanEmbedding
    simp only [one_smul, Finset.sum_const, Finset.card_univ, Fintype.card_fin, nsmul_eq_mul, mul_one, smul_smul, mul_inv_cancel₀ hT']
    unfold meanEmbedding
    simp only [smul_smul]
    abel
  rw [this, norm_neg, norm_smul, mul_pow, Real.norm_eq_abs, sq_abs]
  field_simp

end Feature

variable [Zero X] [NeZero n]

/-- The fast rate for any run of the recursion with repetition. -/
theorem run_le {k : X → X → ℝ} (hk : IsPSD k) (x : Fin n → X) (w : Fin n → ℝ) (hw : ∀ j, 0 ≤ w j) (hW : 0 < ∑ j, w j)
    (R : ℝ) (hR : ∀ j, 0 < w j → k (x j) (x j) ≤ R) (lam : ℝ) (hlam : 0 < lam) (hspread : SpreadAtLeast k x w lam) {size : ℕ}
    (hsize : 0 < size) (f : Fin size → Fin n) (h : HerdingReduce k x w false f) :
    mmdSq k x w (fun t => x (f t)) (fun _ => 1) ≤ 16 * R ^ 3 / lam ^ 2 / (size : ℝ) ^ 2 := by
  obtain ⟨H, _, _, φ, hφ⟩ := hk.exists_feature
  rw [mmd_err k φ hφ x w hsize f _ (Rate.seq_fin f)]
  refine div_le_div_of_nonneg_right ?_ (by positivity)
  have hR0 : 0 ≤ R := (sq_nonneg _).trans (norm_mean_le k φ hφ x w hw hW R hR)
  by_cases hne : err φ x w (Rate.seq f) size = 0
  · rw [hne, norm_zero, zero_pow two_ne_zero]; positivity
  have hle := spread_le k φ hφ x w hw hW R hR lam hspread _ _ hne
  refine err_bounded k φ hφ x w hw hW R hR lam hlam (by linarith) _ size (fun i hi => (Rate.score_of_reduce h i hi).1) fun i hi => ?_
  have hP : ∀ F : Fin n → ℝ, ∑ j ∈ Finset.univ.filter (fun j => 0 < w j), w j * F j = ∑ j, w j * F j := by
    intro F
    refine Finset.sum_subset (Finset.subset_univ _) fun j _ hj => ?_
    have : w j = 0 := le_antisymm (not_lt.1 fun h0 => hj (Finset.mem_filter.2 ⟨Finset.mem_univ _, h0⟩)) (hw j)
    rw [this, zero_mul]
  obtain ⟨j, hj, hm⟩ := margin k φ hφ x w hw hW R hR lam (err φ x w (Rate.seq f) i) (Finset.univ.filter fun j => 0 < w j)
    (fun j hj => (Finset.mem_filter.1 hj).2)
    ⟨_, Finset.mem_filter.2 ⟨Finset.mem_univ _, (Rate.score_of_reduce h i hi).1⟩⟩
    (by rw [hP, avg_centred φ x w hW.ne'])
    (by
      have h1 := spread_err k φ hφ x w lam hspread (Rate.seq f) i
      unfold avg at h1
      rw [le_div_iff₀ hW] at h1
      have h2 := hP fun _ => 1
      simp only [mul_one] at h2
      rw [hP, h2]
      exact h1)
  exact ⟨j, (Finset.mem_filter.1 hj).2, hm, (Rate.score_of_reduce h i hi).2.2 j (Finset.mem_filter.1 hj).2 (by simp)⟩

/-- The fast rate for any run without repetition on equally weighted points, for coresets that are small beside the data. -/
theorem run_unique_le {k : X → X → ℝ} (hk : IsPSD k) (x : Fin n → X) (w : Fin n → ℝ) (hu : UniformWeights w)
    (R : ℝ) (hR : ∀ j, 0 < w j → k (x j) (x j) ≤ R) (lam : ℝ) (hlam : 0 < lam) (hspread : SpreadAtLeast k x w lam) {size : ℕ}
    (hsize : 0 < size) (hsmall : 8 * R * size ≤ lam * (Finset.univ.filter fun j => 0 < w j).card)
    (f : Fin size → Fin n) (h : HerdingReduce k x w true f) :
    mmdSq k x w (fun t => x (f t)) (fun _ => 1) ≤ 64 * R ^ 3 / lam ^ 2 / (size : ℝ) ^ 2 := by
  obtain ⟨u, hu0, hwu⟩ := hu
  have hw : ∀ j, 0 ≤ w j := fun j => by rcases hwu j with h0 | h0 <;> rw [h0]; exact hu0.le
  have hW : 0 < ∑ j, w j := Finset.sum_pos' (fun j _ => hw j) ⟨_, Finset.mem_univ _, (Rate.score_of_reduce h 0 hsize).1⟩
  obtain ⟨H, _, _, φ, hφ⟩ := hk.exists_feature
  rw [mmd_err k φ hφ x w hsize f _ (Rate.seq_fin f)]
  refine div_le_div_of_nonneg_right ?_ (by positivity)
  have hR0 : 0 ≤ R := (sq_nonneg _).trans (norm_mean_le k φ hφ x w hw hW R hR)
  by_cases hne : err φ x w (Rate.seq f) size = 0
  · rw [hne, norm_zero, zero_pow two_ne_zero]; positivity
  have hle := spread_le k φ hφ x w hw hW R hR lam hspread _ _ hne
  have e64 : 64 * R ^ 3 / lam ^ 2 = 16 * R ^ 3 / (lam / 2) ^ 2 := by field_simp; ring
  rw [e64]
  refine err_bounded k φ hφ x w hw hW R hR (lam / 2) (by linarith) (by linarith) _ size
    (fun i hi => (Rate.score_of_reduce h i hi).1) fun m hm => ?_
  set g := Rate.seq f with hg
  set e := err φ x w g m with he
  set a : Fin n → ℝ := fun i => ⟪-e, φ (x i) - meanEmbedding φ x w⟫ with ha
  set P := Finset.univ.filter (fun j => 0 < w j) with hPdef
  set U := (Finset.range m).image g with hU
  have hP : ∀ F : Fin n → ℝ, ∑ j ∈ P, w j * F j = ∑ j, w j * F j := by
    intro F
    refine Finset.sum_subset (Finset.subset_univ _) fun j _ hj => ?_
    have : w j = 0 := le_antisymm (not_lt.1 fun h0 => hj (Finset.mem_filter.2 ⟨Finset.mem_univ _, h0⟩)) (hw j)
    rw [this, zero_mul]
  have hwP : ∀ j ∈ P, w j = u := by
    intro j hj
    rcases hwu j with h0 | h0
    · exact absurd (Finset.mem_filter.1 hj).2 (by rw [h0]; exact lt_irrefl _)
    · exact h0
  have hUP : U ⊆ P := by
    intro j hj
    obtain ⟨t, ht, rfl⟩ := Finset.mem_image.1 hj
    exact Finset.mem_filter.2 ⟨Finset.mem_univ _, (Rate.score_of_reduce h t (by have := Finset.mem_range.1 ht; omega)).1⟩
  have hinj : ∀ i < size, ∀ t < i, g t ≠ g i := fun i hi => (Rate.score_of_reduce h i hi).2.1 rfl
  have hinjOn : Set.InjOn g (Finset.range m : Set ℕ) := by
    intro a ha b hb hab
    have ha' : a < m := by simpa using ha
    have hb' : b < m := by simpa using hb
    rcases lt_trichotomy a b with hlt | heq | hlt
    · exact absurd hab (hinj b (by omega) a hlt)
    · exact heq
    · exact absurd hab.symm (hinj a (by omega) b hlt)
  have hcard : U.card = m := by rw [hU, Finset.card_image_of_injOn hinjOn, Finset.card_range]
  have hmem : g m ∈ P \ U := by
    refine Finset.mem_sdiff.2 ⟨Finset.mem_filter.2 ⟨Finset.mem_univ _, (Rate.score_of_reduce h m hm).1⟩, fun hm' => ?_⟩
    obtain ⟨t, ht, he⟩ := Finset.mem_image.1 hm'
    exact hinj m hm t (Finset.mem_range.1 ht) he
  -- the points already taken account for `-‖e‖²`
  have hUsum : ∑ j ∈ U, w j * a j = -(u * ‖e‖ ^ 2) := by
    rw [Finset.sum_congr rfl fun j hj => by rw [hwP j (hUP hj)], ← Finset.mul_sum, hU, Finset.sum_image hinjOn]
    simp only [ha]
    rw [← inner_sum]
    change u * ⟪-e, err φ x w g m⟫ = _
    rw [← he, inner_neg_left, real_inner_self_eq_norm_sq]
    ring
  have hUsq : ∑ j ∈ U, w j * a j ^ 2 ≤ u * (m * (4 * R * ‖e‖ ^ 2)) := by
    have h1 : ∀ j ∈ U, w j * a j ^ 2 ≤ u * (4 * R * ‖e‖ ^ 2) := by
      intro j hj
      rw [hwP j (hUP hj)]
      refine mul_le_mul_of_nonneg_left ?_ hu0.le
      have h2 : ‖φ (x j)‖ ^ 2 ≤ R := by
        rw [← real_inner_self_eq_norm_sq, ← hφ]; exact hR j (Finset.mem_filter.1 (hUP hj)).2
      have h3 := norm_mean_le k φ hφ x w hw hW R hR
      have h4 : ‖φ (x j) - meanEmbedding φ x w‖ ^ 2 ≤ 4 * R := by
        have h5 := parallelogram_law_with_norm ℝ (φ (x j)) (meanEmbedding φ x w)
        nlinarith [mul_self_nonneg ‖φ (x j) + meanEmbedding φ x w‖]
      have h6 := abs_real_inner_le_norm (-e) (φ (x j) - meanEmbedding φ x w)
      rw [norm_neg] at h6
      have h7 : a j ^ 2 ≤ (‖e‖ * ‖φ (x j) - meanEmbedding φ x w‖) ^ 2 := by
        rw [← sq_abs]; exact pow_le_pow_left₀ (abs_nonneg _) h6 2
      rw [mul_pow] at h7
      nlinarith [mul_le_mul_of_nonneg_left h4 (sq_nonneg ‖e‖)]
    refine (Finset.sum_le_card_nsmul _ _ _ h1).trans (le_of_eq ?_)
    rw [hcard, nsmul_eq_mul]
    ring
  have hWP : ∑ j, w j = u * P.card := by
    have h1 := hP fun _ => 1
    simp only [mul_one] at h1
    rw [← h1, Finset.sum_congr rfl hwP, Finset.sum_const, nsmul_eq_mul, mul_comm]
  have hs1 : ∑ j ∈ P \ U, w j * a j + ∑ j ∈ U, w j * a j = 0 := by
    rw [Finset.sum_sdiff hUP, hP, ha, avg_centred φ x w hW.ne']
  have hs2 : ∑ j ∈ P \ U, w j * a j ^ 2 + ∑ j ∈ U, w j * a j ^ 2 = ∑ j, w j * a j ^ 2 := by
    rw [Finset.sum_sdiff hUP, hP fun j => a j ^ 2]
  have hs3 : ∑ j ∈ P \ U, w j ≤ u * P.card := by
    rw [← hWP]
    exact Finset.sum_le_sum_of_subset_of_nonneg (Finset.subset_univ _) fun j _ _ => hw j
  have hspr := spread_err k φ hφ x w lam hspread g m
  unfold avg at hspr
  rw [le_div_iff₀ hW, hWP] at hspr
  have hm' : 8 * R * m ≤ lam * P.card := by
    refine le_trans ?_ hsmall
    refine mul_le_mul_of_nonneg_left ?_ (by linarith)
    exact_mod_cast hm.le
  obtain ⟨j, hj, hmg⟩ := margin k φ hφ x w hw hW R hR (lam / 2) e (P \ U)
    (fun j hj => (Finset.mem_filter.1 (Finset.mem_sdiff.1 hj).1).2) ⟨_, hmem⟩
    (by
      change 0 ≤ ∑ i ∈ P \ U, w i * a i
      have : 0 ≤ u * ‖e‖ ^ 2 := by positivity
      linarith)
    (by
      change _ ≤ ∑ i ∈ P \ U, w i * a i ^ 2
      change lam * ‖e‖ ^ 2 * (u * P.card) ≤ ∑ i, w i * a i ^ 2 at hspr
      have h1 : lam / 2 * ‖e‖ ^ 2 * ∑ i ∈ P \ U, w i ≤ lam / 2 * ‖e‖ ^ 2 * (u * P.card) :=
        mul_le_mul_of_nonneg_left hs3 (by positivity)
      have h2 : u * ‖e‖ ^ 2 * (8 * R * m) ≤ u * ‖e‖ ^ 2 * (lam * P.card) := mul_le_mul_of_nonneg_left hm' (by positivity)
      linarith)
  obtain ⟨hj1, hj2⟩ := Finset.mem_sdiff.1 hj
  refine ⟨j, (Finset.mem_filter.1 hj1).2, hmg, (Rate.score_of_reduce h m hm).2.2 j (Finset.mem_filter.1 hj1).2 fun _ t ht heq => hj2 ?_⟩
  exact Finset.mem_image.2 ⟨t, Finset.mem_range.2 ht, heq⟩

end Fast

variable [Zero X] [NeZero n]

/-- With `unique=False`: when the data spread out with variance at least `lam` in every direction of feature space that they span, the
squared MMD between the data and the herding coreset is at most `16 R ^ 3 / lam ^ 2` over the square of the size. -/
theorem C71_fast_rate (big : ℝ) (k : X → X → ℝ) (hk : IsPSD k)
    (bs : PyTree (Option ℤ)) (hbs : ValidBlock bs) (size : ℕ) (hsize : 0 < size) (hle : size ≤ n) (pre : Data n X ℝ)
    (hw0 : ∀ j, 0 ≤ pre.weights j) (hpos : ∃ j, 0 < pre.weights j) (state : Option (List ℝ))
    (hst : ∀ l, state = some l → gramianRowMean big k pre bs = .ok l)
    (ord : List (Fin (size + (size - size)))) (hord : ∀ t, t ∈ ord)
    (R : ℝ) (hR : ∀ j, 0 < pre.weights j → k (pre.data j) (pre.data j) ≤ R)
    (lam : ℝ) (hlam : 0 < lam) (hspread : SpreadAtLeast k pre.data pre.weights lam) :
    ∃ f : Fin size → Fin n, ∃ st, herdingReduce big k none false bs size pre state ord
        = .ok (⟨fun t => (f t : ℤ), fun _ => 1⟩, st) ∧
      mmdSq k pre.data pre.weights (fun t => pre.data (f t)) (fun _ => 1) ≤ 16 * R ^ 3 / lam ^ 2 / (size : ℝ) ^ 2 := by
  have hW : 0 < ∑ j, pre.weights j := by
    obtain ⟨j, hj⟩ := hpos
    exact Finset.sum_pos' (fun i _ => hw0 i) ⟨j, Finset.mem_univ _, hj⟩
  obtain ⟨f, h1, h2⟩ := Greedy.reduce_with_replacement big k hk.1 bs hbs size hsize hle pre hW.ne' hpos state hst ord hord
  exact ⟨f, _, h1, Fast.run_le hk pre.data pre.weights hw0 hW R hR lam hlam hspread hsize f h2⟩

/-- With `unique=True` (the default), equal weights (zero-weight rows allowed) and a coreset small beside the data: the squared MMD is at
most `64 R ^ 3 / lam ^ 2` over the square of the size. -/
theorem C71_fast_rate_unique (big : ℝ) (k : X → X → ℝ) (hk : IsPSD k)
    (bs : PyTree (Option ℤ)) (hbs : ValidBlock bs) (size : ℕ) (hsize : 0 < size) (pre : Data n X ℝ)
    (hu : UniformWeights pre.weights) (hpos : PosCount pre.weights size) (state : Option (List ℝ))
    (hst : ∀ l, state = some l → gramianRowMean big k pre bs = .ok l)
    (ord : List (Fin (size + (size - size)))) (hord : ∀ t, t ∈ ord)
    (R : ℝ) (hR : ∀ j, 0 < pre.weights j → k (pre.data j) (pre.data j) ≤ R)
    (lam : ℝ) (hlam : 0 < lam) (hspread : SpreadAtLeast k pre.data pre.weights lam)
    (hsmall : 8 * R * size ≤ lam * (Finset.univ.filter fun j => 0 < pre.weights j).card) :
    ∃ f : Fin size → Fin n, ∃ st, herdingReduce big k none true bs size pre state ord
        = .ok (⟨fun t => (f t : ℤ), fun _ => 1⟩, st) ∧
      mmdSq k pre.data pre.weights (fun t => pre.data (f t)) (fun _ => 1) ≤ 64 * R ^ 3 / lam ^ 2 / (size : ℝ) ^ 2 := by
  have hW : 0 < ∑ j, pre.weights j := by
    obtain ⟨j, hj⟩ := Finset.card_pos.1 (lt_of_lt_of_le hsize hpos)
    obtain ⟨u, hu0, hu⟩ := hu
    refine Finset.sum_pos' (fun i _ => ?_) ⟨j, Finset.mem_univ _, (Finset.mem_filter.1 hj).2⟩
    rcases hu i with h | h <;> rw [h]
    exact hu0.le
  obtain ⟨f, h1, h2⟩ := C12_reduce_greedy big k hk.1 true bs hbs size hsize pre hW.ne' state hst ord hord hpos
  exact ⟨f, _, h1, Fast.run_unique_le hk pre.data pre.weights hu R hR lam hlam hspread hsize hsmall f h2⟩

/-- The condition holds of a kernel given by finitely many features whose covariance over the data is at least `lam` times the identity. -/
theorem C71_features {d : ℕ} (φ : X → Fin d → ℝ) (x : Fin n → X) (w : Fin n → ℝ) (lam : ℝ)
    (h : ∀ u : Fin d → ℝ, lam * ∑ a, u a ^ 2 ≤ avg w fun i => (∑ a, u a * (φ (x i) a - avg w fun l => φ (x l) a)) ^ 2) :
    SpreadAtLeast (fun p q => ∑ a, φ p a * φ q a) x w lam := by
  intro c
  have hc : ∀ i j, centred (fun p q => ∑ a, φ p a * φ q a) x w i j
      = ∑ a, (φ (x i) a - avg w fun l => φ (x l) a) * (φ (x j) a - avg w fun l => φ (x l) a) := by
    intro i j
    have h1 : ∀ b : Fin d → ℝ, avg w (fun l => ∑ a, φ (x l) a * b a) = ∑ a, (avg w fun l => φ (x l) a) * b a := by
      intro b
      unfold avg
      simp only [Finset.mul_sum, div_mul_eq_mul_div, ← Finset.sum_div, Finset.sum_mul]
      rw [Finset.sum_comm]
      exact congrArg (· / _) (Finset.sum_congr rfl fun a _ => Finset.sum_congr rfl fun l _ => by ring)
    unfold centred
    rw [h1, h1]
    have h2 : (avg w fun l => avg w fun q => ∑ a, φ (x l) a * φ (x q) a)
        = ∑ a, (avg w fun l => φ (x l) a) * (avg w fun l => φ (x l) a) := by
      rw [← h1]
      congr 1
      funext l
      rw [Finset.sum_congr rfl fun a _ => mul_comm (φ (x l) a) (avg w fun l => φ (x l) a), ← h1]
      congr 1
      funext q
      exact Finset.sum_congr rfl fun a _ => mul_comm _ _
    rw [h2, ← Finset.sum_sub_distrib, ← Finset.sum_sub_distrib, ← Finset.sum_add_distrib]
    exact Finset.sum_congr rfl fun a _ => by ring
  have hu := h fun a => ∑ j, c j * (φ (x j) a - avg w fun l => φ (x l) a)
  have e1 : ∑ a, (∑ j, c j * (φ (x j) a - avg w fun l => φ (x l) a)) ^ 2
      = ∑ i, ∑ j, c i * c j * centred (fun p q => ∑ a, φ p a * φ q a) x w i j := by
    simp only [hc, sq, Finset.sum_mul, Finset.mul_sum]
    rw [Finset.sum_comm]
    refine Finset.sum_congr rfl fun i _ => ?_
    rw [Finset.sum_comm]
    exact Finset.sum_congr rfl fun j _ => Finset.sum_congr rfl fun a _ => by ring
  have e2 : ∀ i, ∑ a, (∑ j, c j * (φ (x j) a - avg w fun l => φ (x l) a)) * (φ (x i) a - avg w fun l => φ (x l) a)
      = ∑ j, c j * centred (fun p q => ∑ a, φ p a * φ q a) x w i j := by
    intro i
    simp only [hc, Finset.sum_mul, Finset.mul_sum]
    rw [Finset.sum_comm]
    exact Finset.sum_congr rfl fun j _ => Finset.sum_congr rfl fun a _ => by ring
  rw [e1] at hu
  simp only [e2] at hu
  exact hu

/-- Every data set of positively weighted points meets the condition for some positive number, whatever the kernel. -/
theorem C71_condition {k : X → X → ℝ} (hk : IsPSD k) (x : Fin n → X) (w : Fin n → ℝ) (hw : ∀ j, 0 < w j) :
    ∃ lam, 0 < lam ∧ SpreadAtLeast k x w lam := by
  obtain ⟨H, _, _, φ, hφ⟩ := hk.exists_feature
  have hW : 0 < ∑ j, w j := Finset.sum_pos (fun j _ => hw j) ⟨0, Finset.mem_univ _⟩
  set v : Fin n → H := fun i => φ (x i) - meanEmbedding φ x w with hv
  let V := Submodule.span ℝ (Set.range v)
  have : FiniteDimensional ℝ V := FiniteDimensional.span_of_finite ℝ (Set.finite_range v)
  let Q : V → ℝ := fun p => avg w fun i => ⟪(p : H), v i⟫ ^ 2
  have hQ : Continuous Q := by
    simp only [Q, avg]
    fun_prop
  have hscale : ∀ (c : ℝ) (p : V), Q (c • p) = c ^ 2 * Q p := by
    intro c p
    simp only [Q, avg, Submodule.coe_smul, inner_smul_left, RCLike.conj_to_real, mul_pow]
    rw [← mul_div_assoc, Finset.mul_sum]
    exact congrArg (· / _) (Finset.sum_congr rfl fun i _ => by ring)
  have hpos : ∀ p : V, p ≠ 0 → 0 < Q p := by
    intro p hp
    have h0 : 0 ≤ Q p := div_nonneg (Finset.sum_nonneg fun i _ => mul_nonneg (hw i).le (sq_nonneg _)) hW.le
    refine lt_of_le_of_ne h0 fun h => hp ?_
    have h1 : ∑ i, w i * ⟪(p : H), v i⟫ ^ 2 = 0 := by
      have : (∑ i, w i * ⟪(p : H), v i⟫ ^ 2) / ∑ i, w i = 0 := h.symm
      exact (div_eq_zero_iff.1 this).resolve_right hW.ne'
    rw [Finset.sum_eq_zero_iff_of_nonneg fun i _ => mul_nonneg (hw i).le (sq_nonneg _)] at h1
    have h2 : ∀ q ∈ V, ⟪(p : H), q⟫ = 0 := by
      intro q hq
      refine Submodule.span_induction (p := fun q _ => ⟪(p : H), q⟫ = 0) ?_ (inner_zero_right _) ?_ ?_ hq
      · rintro _ ⟨i, rfl⟩
        have := h1 i (Finset.mem_univ _)
        exact pow_eq_zero_iff two_ne_zero |>.1 ((mul_eq_zero.1 this).resolve_left (hw i).ne')
      · intro a b _ _ ha hb
        rw [inner_add_right, ha, hb, add_zero]
      · intro c a _ ha
        rw [inner_smul_right, ha, mul_zero]
    have := h2 p p.2
    exact Subtype.ext (inner_self_eq_zero.1 this)
  have key : ∃ lam, 0 < lam ∧ ∀ p : V, lam * ‖p‖ ^ 2 ≤ Q p := by
    by_cases hne : (Metric.sphere (0 : V) 1).Nonempty
    · obtain ⟨p0, hp0, hmin⟩ := (isCompact_sphere (0 : V) 1).exists_isMinOn hne hQ.continuousOn
      have hp1 : ‖p0‖ = 1 := by simpa using hp0
      refine ⟨Q p0, hpos p0 (by rintro rfl; simp at hp1), fun p => ?_⟩
      rcases eq_or_ne p 0 with rfl | hp
      · simp [Q, avg]
      · have hn : ‖p‖ ≠ 0 := norm_ne_zero_iff.2 hp
        have h1 : Q p0 ≤ Q (‖p‖⁻¹ • p) := hmin (by rw [mem_sphere_zero_iff_norm, norm_smul, norm_inv, norm_norm, inv_mul_cancel₀ hn])
        rw [hscale, inv_pow] at h1
        have h2 : 0 < ‖p‖ ^ 2 := by positivity
        have h3 := mul_le_mul_of_nonneg_right h1 h2.le
        rwa [mul_right_comm, inv_mul_cancel₀ h2.ne', one_mul] at h3
    · refine ⟨1, one_pos, fun p => ?_⟩
      have hp : p = 0 := by
        by_contra hp
        have hn : ‖p‖ ≠ 0 := norm_ne_zero_iff.2 hp
        exact hne ⟨‖p‖⁻¹ • p, by rw [mem_sphere_zero_iff_norm, norm_smul, norm_inv, norm_norm, inv_mul_cancel₀ hn]⟩
      rw [hp]
      simp [Q, avg]
  obtain ⟨lam, hlam, hall⟩ := key
  refine ⟨lam, hlam, fun c => ?_⟩
  have hmem : ∑ l, c l • v l ∈ V := Submodule.sum_mem _ fun l _ => Submodule.smul_mem _ _ (Submodule.subset_span ⟨l, rfl⟩)
  have h1 := hall ⟨_, hmem⟩
  simp only [Fast.centred_eq k φ hφ]
  have e1 : ‖(⟨∑ l, c l • v l, hmem⟩ : V)‖ ^ 2 = ∑ i, ∑ j, c i * c j * ⟪v i, v j⟫ := by
    rw [Submodule.coe_norm, ← real_inner_self_eq_norm_sq]
    simp only [sum_inner, inner_sum, inner_smul_left, inner_smul_right, RCLike.conj_to_real, Finset.mul_sum, mul_assoc]
    exact Finset.sum_congr rfl fun i _ => Finset.sum_congr rfl fun j _ => by rw [real_inner_comm]
  have e2 : Q ⟨_, hmem⟩ = avg w fun i => (∑ j, c j * ⟪v i, v j⟫) ^ 2 := by
    simp only [Q, sum_inner, inner_smul_left, RCLike.conj_to_real]
    congr 1
    funext i
    congr 1
    exact Finset.sum_congr rfl fun j _ => by rw [real_inner_comm]
  rw [e1, e2] at h1
  exact h1

example := C71_condition (n := 3) (isPSD_rankOne fun x : ℝ => x) ![0, 1, 3] ![1, 2, 1] (by intro j; fin_cases j <;> norm_num)

/-- Alternating points `1, -1, 1, -1, …`. -/
def altPoints (n : ℕ) (i : Fin n) : ℝ := if (i : ℕ) % 2 = 0 then 1 else -1

theorem altPoints_spread : SpreadAtLeast (fun p q : ℝ => ∑ _a : Fin 1, p * q) (altPoints 16) (fun _ => 1) 1 :=
  C71_features (n := 16) (fun p (_ : Fin 1) => p) (altPoints 16) (fun _ => 1) 1 fun u => by
    simp [avg, altPoints, Fin.sum_univ_succ]

theorem altPoints_psd : IsPSD fun p q : ℝ => ∑ _a : Fin 1, p * q := by
  simpa using isPSD_rankOne fun x : ℝ => x

example := altPoints_spread

example := C71_fast_rate 1000 _ altPoints_psd (.leaf none) (.inl rfl) 9 (by norm_num) (by norm_num) (⟨altPoints 16, fun _ => 1⟩ : Data 16 ℝ ℝ)
  (fun _ => zero_le_one) ⟨0, one_pos⟩ none (by simp) (List.finRange _) (by simp) 1
  (fun j _ => by simp only [altPoints, Finset.univ_unique, Finset.sum_singleton]; split <;> norm_num) 1 one_pos altPoints_spread

example := C71_fast_rate_unique 1000 _ altPoints_psd (.leaf none) (.inl rfl) 2 (by norm_num) (⟨altPoints 16, fun _ => 1⟩ : Data 16 ℝ ℝ)
  ⟨1, one_pos, fun _ => Or.inr rfl⟩ (by simp [PosCount]) none (by simp) (List.finRange _) (by simp) 1
  (fun j _ => by simp only [altPoints, Finset.univ_unique, Finset.sum_singleton]; split <;> norm_num) 1 one_pos altPoints_spread
  (by simp; norm_num)

end Coreax
