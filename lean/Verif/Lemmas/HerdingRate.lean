import Verif.Props.HerdingMMD

/-!
# The discrepancy along a herding run

`S_m = m μ - Σ_{t<m} φ(x_{g t})` is written out in kernel values: `potential` is its squared norm.
-/

set_option linter.unusedSectionVars false

namespace Coreax

open Spec

variable {X K : Type*} [Field K] [LinearOrder K] [IsStrictOrderedRing K] {n : ℕ}

namespace Rate

/-- Mean similarity of point `j` to the data. -/
def meanAt (k : X → X → K) (x : Fin n → X) (w : Fin n → K) (j : Fin n) : K := avg w fun l => k (x l) (x j)

/-- Squared norm of the mean embedding. -/
def meanSq (k : X → X → K) (x : Fin n → X) (w : Fin n → K) : K := avg w fun i => avg w fun j => k (x i) (x j)

def sumMean (k : X → X → K) (x : Fin n → X) (w : Fin n → K) (g : ℕ → Fin n) (m : ℕ) : K :=
  ∑ t ∈ Finset.range m, meanAt k x w (g t)

def sumPair (k : X → X → K) (x : Fin n → X) (g : ℕ → Fin n) (m : ℕ) : K :=
  ∑ s ∈ Finset.range m, ∑ t ∈ Finset.range m, k (x (g s)) (x (g t))

def potential (k : X → X → K) (x : Fin n → X) (w : Fin n → K) (g : ℕ → Fin n) (m : ℕ) : K :=
  (m : K) ^ 2 * meanSq k x w - 2 * m * sumMean k x w g m + sumPair k x g m

/-- `⟨(m+1) μ - Σ_{t<m} φ(x_{g t}), φ(x_j)⟩`. -/
def score (k : X → X → K) (x : Fin n → X) (w : Fin n → K) (g : ℕ → Fin n) (m : ℕ) (j : Fin n) : K :=
  ((m : K) + 1) * meanAt k x w j - ∑ t ∈ Finset.range m, k (x j) (x (g t))

theorem potential_succ (k : X → X → K) (hk : ∀ a b, k a b = k b a) (x : Fin n → X) (w : Fin n → K) (g : ℕ → Fin n) (m : ℕ) :
    potential k x w g (m + 1) = potential k x w g m + (2 * m + 1) * meanSq k x w - 2 * sumMean k x w g m
      - 2 * score k x w g m (g m) + k (x (g m)) (x (g m)) := by
  unfold potential score sumMean sumPair
  simp only [Finset.sum_range_succ, Finset.sum_add_distrib]
  have e : ∑ s ∈ Finset.range m, k (x (g s)) (x (g m)) = ∑ s ∈ Finset.range m, k (x (g m)) (x (g s)) :=
    Finset.sum_congr rfl fun _ _ => hk _ _
  rw [e]
  push_cast
  ring

theorem sum_weights_meanAt (k : X → X → K) (hk : ∀ a b, k a b = k b a) (x : Fin n → X) (w : Fin n → K) :
    avg w (meanAt k x w) = meanSq k x w := by
  unfold meanSq meanAt
  congr 1
  funext i
  congr 1
  funext j
  exact hk _ _

theorem avg_sum_range (w : Fin n → K) (F : Fin n → ℕ → K) (m : ℕ) :
    avg w (fun j => ∑ t ∈ Finset.range m, F j t) = ∑ t ∈ Finset.range m, avg w fun j => F j t := by
  unfold avg
  rw [← Finset.sum_div]
  congr 1
  simp only [Finset.mul_sum]
  exact Finset.sum_comm

/-- The mean of the score over the data. -/
theorem avg_score (k : X → X → K) (hk : ∀ a b, k a b = k b a) (x : Fin n → X) (w : Fin n → K) (g : ℕ → Fin n) (m : ℕ) :
    avg w (score k x w g m) = ((m : K) + 1) * meanSq k x w - sumMean k x w g m := by
  have h1 : avg w (score k x w g m) = ((m : K) + 1) * avg w (meanAt k x w) - avg w (fun j => ∑ t ∈ Finset.range m, k (x j) (x (g t))) := by
    unfold avg score
    rw [← mul_div_assoc, ← sub_div]
    congr 1
    rw [Finset.mul_sum, ← Finset.sum_sub_distrib]
    exact Finset.sum_congr rfl fun _ _ => by ring
  rw [h1, sum_weights_meanAt k hk, avg_sum_range]
  rfl

/-- An average does not exceed an upper bound over the rows of positive weight. -/
theorem avg_le (w : Fin n → K) (hw : ∀ j, 0 ≤ w j) (hW : 0 < ∑ j, w j) (F : Fin n → K) (b : K) (h : ∀ j, 0 < w j → F j ≤ b) :
    avg w F ≤ b := by
  unfold avg
  rw [div_le_iff₀ hW, Finset.mul_sum]
  refine Finset.sum_le_sum fun j _ => ?_
  rcases (hw j).eq_or_lt with h0 | h0
  · rw [← h0]; simp
  · rw [mul_comm b]; exact mul_le_mul_of_nonneg_left (h j h0) h0.le

/-- With replacement, with the maximum of the score missed by at most `δ i` in step `i`. -/
theorem potential_le_slack (k : X → X → K) (hk : ∀ a b, k a b = k b a) (x : Fin n → X) (w : Fin n → K) (hw : ∀ j, 0 ≤ w j)
    (hW : 0 < ∑ j, w j) (R : K) (g : ℕ → Fin n) (N : ℕ) (δ : ℕ → K)
    (hR : ∀ i < N, k (x (g i)) (x (g i)) ≤ R)
    (h : ∀ i < N, ∀ j, 0 < w j → score k x w g i j ≤ score k x w g i (g i) + δ i) (m : ℕ) (hm : m ≤ N) :
    potential k x w g m ≤ m * (R - meanSq k x w) + 2 * ∑ i ∈ Finset.range m, δ i := by
  induction m with
  | zero => simp [potential, sumPair]
  | succ m ih =>
    have h1 := avg_le w hw hW (score k x w g m) _ (h m (by omega))
    rw [avg_score k hk] at h1
    rw [potential_succ k hk, Finset.sum_range_succ]
    have := ih (by omega)
    have := hR m (by omega)
    push_cast
    linarith

/-- With replacement: the potential grows by at most `R - ‖μ‖²` per step. -/
theorem potential_le (k : X → X → K) (hk : ∀ a b, k a b = k b a) (x : Fin n → X) (w : Fin n → K) (hw : ∀ j, 0 ≤ w j)
    (hW : 0 < ∑ j, w j) (R : K) (g : ℕ → Fin n) (N : ℕ)
    (hR : ∀ i < N, k (x (g i)) (x (g i)) ≤ R)
    (h : ∀ i < N, ∀ j, 0 < w j → score k x w g i j ≤ score k x w g i (g i)) (m : ℕ) (hm : m ≤ N) :
    potential k x w g m ≤ m * (R - meanSq k x w) := by
  have := potential_le_slack k hk x w hw hW R g N (fun _ => 0) hR (fun i hi j hj => by rw [add_zero]; exact h i hi j hj) m hm
  simpa using this

/-- The quadratic form of `α μ - Σ_{t<m} φ(x_{g t})`. -/
theorem quad_form (k : X → X → K) (hk : ∀ a b, k a b = k b a) (x : Fin n → X) (w : Fin n → K) (g : ℕ → Fin n) (m : ℕ) (α : K) :
    let c : Fin n → K := fun j => α * (w j / ∑ l, w l) - ∑ t ∈ Finset.range m, if g t = j then 1 else 0
    ∑ i, ∑ j, c i * c j * k (x i) (x j)
      = α ^ 2 * meanSq k x w - 2 * α * sumMean k x w g m + sumPair k x g m := by
  intro c
  have inner : ∀ F : Fin n → K, ∑ j, c j * F j = α * avg w F - ∑ t ∈ Finset.range m, F (g t) := by
    intro F
    simp only [c, sub_mul, Finset.sum_sub_distrib]
    congr 1
    · unfold avg
      rw [Finset.sum_div, Finset.mul_sum]
      exact Finset.sum_congr rfl fun _ _ => by ring
    · simp only [Finset.sum_mul]
      rw [Finset.sum_comm]
      refine Finset.sum_congr rfl fun t _ => ?_
      simp
  have e1 : ∀ i, ∑ j, c i * c j * k (x i) (x j) = c i * (α * meanAt k x w i - ∑ t ∈ Finset.range m, k (x i) (x (g t))) := by
    intro i
    have := inner fun j => k (x i) (x j)
    have e : avg w (fun j => k (x i) (x j)) = meanAt k x w i := by
      unfold meanAt; congr 1; funext j; exact hk _ _
    rw [e] at this
    rw [← this, Finset.mul_sum]
    exact Finset.sum_congr rfl fun _ _ => by ring
  simp only [e1]
  rw [inner]
  have e2 : avg w (fun i => α * meanAt k x w i - ∑ t ∈ Finset.range m, k (x i) (x (g t)))
      = α * meanSq k x w - sumMean k x w g m := by
    have h1 : avg w (fun i => α * meanAt k x w i - ∑ t ∈ Finset.range m, k (x i) (x (g t)))
        = α * avg w (meanAt k x w) - avg w (fun j => ∑ t ∈ Finset.range m, k (x j) (x (g t))) := by
      unfold avg
      rw [← mul_div_assoc, ← sub_div]
      congr 1
      rw [Finset.mul_sum, ← Finset.sum_sub_distrib]
      exact Finset.sum_congr rfl fun _ _ => by ring
    rw [h1, sum_weights_meanAt k hk, avg_sum_range]
    rfl
  rw [e2, Finset.sum_sub_distrib, ← Finset.mul_sum]
  unfold sumMean sumPair
  ring

/-- The mean of the scores of the points not yet chosen, for equal weights. -/
theorem remaining_mean (k : X → X → K) (hk : ∀ a b, k a b = k b a) (x : Fin n → X)
    (hpsd : ∀ c : Fin n → K, 0 ≤ ∑ i, ∑ j, c i * c j * k (x i) (x j)) (w : Fin n → K) (u : K) (hu : 0 < u)
    (hw : ∀ j, w j = 0 ∨ w j = u) (g : ℕ → Fin n) (m : ℕ) (hpos : ∀ i < m, 0 < w (g i)) (hinj : ∀ i < m, ∀ t < i, g t ≠ g i)
    (q : Fin n) (hq : 0 < w q ∧ ∀ t < m, g t ≠ q) (s : K)
    (h : ∑ j ∈ Finset.univ.filter (fun j => 0 < w j ∧ ∀ t < m, g t ≠ j), score k x w g m j
      ≤ ((Finset.univ.filter (fun j => 0 < w j ∧ ∀ t < m, g t ≠ j)).card : K) * s) :
    -(meanSq k x w / 4) ≤ s - ((m : K) + 1) * meanSq k x w + sumMean k x w g m := by
  set P := Finset.univ.filter (fun j => 0 < w j) with hP
  set U := (Finset.range m).image g with hU
  have hUP : U ⊆ P := by
    intro j hj
    obtain ⟨t, ht, rfl⟩ := Finset.mem_image.1 hj
    exact Finset.mem_filter.2 ⟨Finset.mem_univ _, hpos t (Finset.mem_range.1 ht)⟩
  have hinjOn : Set.InjOn g (Finset.range m : Set ℕ) := by
    intro a ha b hb hab
    have ha' : a < m := by simpa using ha
    have hb' : b < m := by simpa using hb
    rcases lt_trichotomy a b with hlt | heq | hlt
    · exact absurd hab (hinj b hb' a hlt)
    · exact heq
    · exact absurd hab.symm (hinj a ha' b hlt)
  have hcard : U.card = m := by rw [hU, Finset.card_image_of_injOn hinjOn, Finset.card_range]
  have hmem : q ∈ P \ U := by
    refine Finset.mem_sdiff.2 ⟨Finset.mem_filter.2 ⟨Finset.mem_univ _, hq.1⟩, fun hm' => ?_⟩
    obtain ⟨t, ht, he⟩ := Finset.mem_image.1 hm'
    exact hq.2 t (Finset.mem_range.1 ht) he
  have hwP : ∀ j ∈ P, w j = u := by
    intro j hj
    rcases hw j with h0 | h0
    · exact absurd (Finset.mem_filter.1 hj).2 (by rw [h0]; exact lt_irrefl _)
    · exact h0
  -- the mean over the rows of positive weight
  have havg : ∀ F : Fin n → K, ∑ j ∈ P, F j = (P.card : K) * avg w F := by
    intro F
    have hs : ∀ G : Fin n → K, ∑ j, w j * G j = u * ∑ j ∈ P, G j := by
      intro G
      rw [Finset.mul_sum, ← Finset.sum_subset (Finset.subset_univ P)]
      · exact Finset.sum_congr rfl fun j hj => by rw [hwP j hj]
      · intro j _ hj
        have : w j = 0 := by
          rcases hw j with h0 | h0
          · exact h0
          · exact absurd (Finset.mem_filter.2 ⟨Finset.mem_univ _, by rw [h0]; exact hu⟩) hj
        rw [this, zero_mul]
    have hW : ∑ j, w j = u * P.card := by
      have := hs fun _ => 1
      simpa using this
    have hPc : 0 < (P.card : K) := by
      have : 0 < P.card := Finset.card_pos.2 ⟨q, (Finset.mem_sdiff.1 hmem).1⟩
      exact_mod_cast this
    unfold avg
    rw [hs, hW]
    field_simp
  have hc : ((P \ U).card : K) = (P.card : K) - m := by
    rw [Finset.card_sdiff_of_subset hUP, hcard, Nat.cast_sub]
    rw [← hcard]
    exact Finset.card_le_card hUP
  have hD : (1 : K) ≤ (P.card : K) - m := by
    rw [← hc]
    have : 1 ≤ (P \ U).card := Finset.card_pos.2 ⟨_, hmem⟩
    exact_mod_cast this
  have hrem : ∑ j ∈ P \ U, score k x w g m j ≤ ((P.card : K) - m) * s := by
    have e : Finset.univ.filter (fun j => 0 < w j ∧ ∀ t < m, g t ≠ j) = P \ U := by
      ext j
      simp only [hP, hU, Finset.mem_filter, Finset.mem_univ, true_and, Finset.mem_sdiff, Finset.mem_image, Finset.mem_range, not_exists, not_and]
    rw [e] at h
    rw [← hc]
    exact h
  have hsplit : ∑ j ∈ P \ U, score k x w g m j
      = (P.card : K) * (((m : K) + 1) * meanSq k x w - sumMean k x w g m)
        - (((m : K) + 1) * sumMean k x w g m - sumPair k x g m) := by
    have h1 := Finset.sum_sdiff (f := score k x w g m) hUP
    have h2 : ∑ j ∈ U, score k x w g m j = ((m : K) + 1) * sumMean k x w g m - sumPair k x g m := by
      rw [hU, Finset.sum_image hinjOn]
      unfold score sumMean sumPair
      rw [Finset.sum_sub_distrib, Finset.mul_sum]
    rw [havg, avg_score k hk, h2] at h1
    linarith
  have hM : 0 ≤ meanSq k x w := by
    have h0 := hpsd (fun j => 1 * (w j / ∑ l, w l) - ∑ t ∈ Finset.range 0, if g t = j then 1 else 0)
    have := quad_form k hk x w g 0 1
    simp only at this
    rw [this] at h0
    simpa [sumMean, sumPair] using h0
  have hq : 0 ≤ ((m : K) + 1 / 2) ^ 2 * meanSq k x w - 2 * ((m : K) + 1 / 2) * sumMean k x w g m + sumPair k x g m := by
    have h0 := hpsd (fun j => ((m : K) + 1 / 2) * (w j / ∑ l, w l) - ∑ t ∈ Finset.range m, if g t = j then 1 else 0)
    have := quad_form k hk x w g m ((m : K) + 1 / 2)
    simp only at this
    rwa [this] at h0
  rw [hsplit] at hrem
  by_contra hcon
  push Not at hcon
  have h1 : ((P.card : K) - m) * (s - ((m : K) + 1) * meanSq k x w + sumMean k x w g m)
      < -(meanSq k x w / 4) := by
    have h2 : s - ((m : K) + 1) * meanSq k x w + sumMean k x w g m < 0 := by linarith
    nlinarith
  nlinarith

/-- Without replacement, equal weights, with the maximum of the score missed by at most `δ i` in step `i`. -/
theorem potential_le_unique_slack (k : X → X → K) (hk : ∀ a b, k a b = k b a) (x : Fin n → X)
    (hpsd : ∀ c : Fin n → K, 0 ≤ ∑ i, ∑ j, c i * c j * k (x i) (x j)) (w : Fin n → K) (u : K) (hu : 0 < u)
    (hw : ∀ j, w j = 0 ∨ w j = u) (R : K) (g : ℕ → Fin n) (N : ℕ) (δ : ℕ → K)
    (hR : ∀ i < N, k (x (g i)) (x (g i)) ≤ R) (hpos : ∀ i < N, 0 < w (g i)) (hinj : ∀ i < N, ∀ t < i, g t ≠ g i)
    (h : ∀ i < N, ∀ j, 0 < w j → (∀ t < i, g t ≠ j) → score k x w g i j ≤ score k x w g i (g i) + δ i) (m : ℕ) (hm : m ≤ N) :
    potential k x w g m ≤ m * (R - meanSq k x w / 2) + 2 * ∑ i ∈ Finset.range m, δ i := by
  induction m with
  | zero => simp [potential, sumPair]
  | succ m ih =>
    have key := remaining_mean k hk x hpsd w u hu hw g m (fun i hi => hpos i (by omega)) (fun i hi => hinj i (by omega)) (g m)
      ⟨hpos m (by omega), fun t ht => hinj m (by omega) t ht⟩ (score k x w g m (g m) + δ m) (by
        have := Finset.sum_le_card_nsmul (Finset.univ.filter (fun j => 0 < w j ∧ ∀ t < m, g t ≠ j)) (score k x w g m)
          (score k x w g m (g m) + δ m) (fun j hj => by
            obtain ⟨h1, h2⟩ := (Finset.mem_filter.1 hj).2
            exact h m (by omega) j h1 h2)
        simpa [nsmul_eq_mul] using this)
    rw [potential_succ k hk, Finset.sum_range_succ]
    have := ih (by omega)
    have := hR m (by omega)
    push_cast
    linarith

/-- Without replacement, equal weights: the potential grows by at most `R - ‖μ‖² / 2` per step. -/
theorem potential_le_unique (k : X → X → K) (hk : ∀ a b, k a b = k b a) (x : Fin n → X)
    (hpsd : ∀ c : Fin n → K, 0 ≤ ∑ i, ∑ j, c i * c j * k (x i) (x j)) (w : Fin n → K) (u : K) (hu : 0 < u)
    (hw : ∀ j, w j = 0 ∨ w j = u) (R : K) (g : ℕ → Fin n) (N : ℕ)
    (hR : ∀ i < N, k (x (g i)) (x (g i)) ≤ R) (hpos : ∀ i < N, 0 < w (g i)) (hinj : ∀ i < N, ∀ t < i, g t ≠ g i)
    (h : ∀ i < N, ∀ j, 0 < w j → (∀ t < i, g t ≠ j) → score k x w g i j ≤ score k x w g i (g i)) (m : ℕ) (hm : m ≤ N) :
    potential k x w g m ≤ m * (R - meanSq k x w / 2) := by
  have := potential_le_unique_slack k hk x hpsd w u hu hw R g N (fun _ => 0) hR hpos hinj
    (fun i hi j hj hju => by rw [add_zero]; exact h i hi j hj hju) m hm
  simpa using this

/-- The potential is `m²` times the squared discrepancy. -/
theorem potential_eq_mmdSq (k : X → X → K) (x : Fin n → X) (w : Fin n → K) {T : ℕ} (hT : 0 < T)
    (f : Fin T → Fin n) (g : ℕ → Fin n) (hg : ∀ t : Fin T, g t = f t) :
    potential k x w g T = (T : K) ^ 2 * mmdSq k x w (fun t => x (f t)) (fun _ => 1) := by
  have hT' : (T : K) ≠ 0 := by positivity
  have e1 : sumMean k x w g T = ∑ t, meanAt k x w (f t) := by
    unfold sumMean
    rw [Finset.sum_range]
    exact Finset.sum_congr rfl fun t _ => by rw [hg]
  have e2 : sumPair k x g T = ∑ s, ∑ t, k (x (f s)) (x (f t)) := by
    unfold sumPair
    rw [Finset.sum_range]
    refine Finset.sum_congr rfl fun s _ => ?_
    rw [Finset.sum_range]
    exact Finset.sum_congr rfl fun t _ => by rw [hg, hg]
  have e3 : avg w (fun i => avg (fun _ : Fin T => (1 : K)) fun j => k (x i) (x (f j))) = (∑ t, meanAt k x w (f t)) / T := by
    unfold meanAt avg
    simp only [one_mul, Finset.sum_const, Finset.card_univ, Fintype.card_fin, nsmul_eq_mul, mul_one]
    rw [← Finset.sum_div, div_right_comm]
    congr 1
    rw [Finset.sum_comm' (s := Finset.univ) (t := fun _ => Finset.univ) (t' := Finset.univ) (s' := fun _ => Finset.univ) (by simp), Finset.sum_div]
    refine Finset.sum_congr rfl fun i _ => ?_
    rw [← mul_div_assoc, Finset.mul_sum]
  unfold potential mmdSq
  rw [e1, e2, e3]
  simp only [avg, one_mul, Finset.sum_const, Finset.card_univ, Fintype.card_fin, nsmul_eq_mul, mul_one]
  rw [← Finset.sum_div]
  unfold meanSq avg
  field_simp

end Rate

end Coreax
