import Verif.Lemmas.Kernel
import Verif.Lemmas.PSD
import Verif.Props.HerdingRateCases
import Verif.Props.Stein
import Verif.Spec.Kernel

/-!
# C49: how close Stein thinning comes to the best reweighting of the data

For a positive semi-definite kernel (a Stein kernel in particular, whose mean vanishes under the target) `sqrt (avg avg k)` is the kernel
Stein discrepancy of a sample. Unregularised Stein thinning.
-/

set_option linter.unusedSectionVars false

namespace Coreax

open Greedy Spec

/-- The discrepancy of a weighted sample from the zero function: the kernel Stein discrepancy, if `k` is a Stein kernel. -/
noncomputable def Spec.ksd {X : Type*} (k : X → X → ℝ) {n : ℕ} (x : Fin n → X) (w : Fin n → ℝ) : ℝ :=
  Real.sqrt (avg w fun i => avg w fun j => k (x i) (x j))

namespace Rate

section
variable {X K : Type*} [Field K] [LinearOrder K] [IsStrictOrderedRing K] {n : ℕ}

/-- The objective of unregularised Stein thinning. -/
def steinObj (k : X → X → K) (x : Fin n → X) (g : ℕ → Fin n) (m : ℕ) (j : Fin n) : K :=
  k (x j) (x j) + 2 * ∑ t ∈ Finset.range m, k (x j) (x (g t))

theorem sumPair_succ (k : X → X → K) (hk : ∀ a b, k a b = k b a) (x : Fin n → X) (g : ℕ → Fin n) (m : ℕ) :
    sumPair k x g (m + 1) = sumPair k x g m + steinObj k x g m (g m) := by
  unfold sumPair steinObj
  simp only [Finset.sum_range_succ, Finset.sum_add_distrib]
  have e : ∑ s ∈ Finset.range m, k (x (g s)) (x (g m)) = ∑ s ∈ Finset.range m, k (x (g m)) (x (g s)) :=
    Finset.sum_congr rfl fun _ _ => hk _ _
  rw [e]
  ring

theorem avg_steinObj (k : X → X → K) (x : Fin n → X) (v : Fin n → K) (g : ℕ → Fin n) (m : ℕ) :
    avg v (steinObj k x g m) = (avg v fun j => k (x j) (x j)) + 2 * sumMean k x v g m := by
  have h1 : avg v (steinObj k x g m) = (avg v fun j => k (x j) (x j)) + 2 * avg v (fun j => ∑ t ∈ Finset.range m, k (x j) (x (g t))) := by
    unfold avg steinObj
    rw [← mul_div_assoc, ← add_div]
    congr 1
    rw [Finset.mul_sum, ← Finset.sum_add_distrib]
    exact Finset.sum_congr rfl fun _ _ => by ring
  rw [h1, avg_sum_range]
  rfl

end

variable {X : Type*} {n : ℕ}

/-- The inequality of Cauchy and Schwarz between the mean of the data and the sum of the chosen points. -/
theorem cauchy (k : X → X → ℝ) (hk : ∀ a b, k a b = k b a) (x : Fin n → X)
    (hpsd : ∀ c : Fin n → ℝ, 0 ≤ ∑ i, ∑ j, c i * c j * k (x i) (x j)) (v : Fin n → ℝ) (g : ℕ → Fin n) (m : ℕ) :
    0 ≤ meanSq k x v ∧ 0 ≤ sumPair k x g m ∧ sumMean k x v g m ≤ Real.sqrt (meanSq k x v) * Real.sqrt (sumPair k x g m) := by
  have hq : ∀ s : ℝ, 0 ≤ meanSq k x v * (s * s) + (-2 * sumMean k x v g m) * s + sumPair k x g m := by
    intro s
    have h0 := hpsd (fun j => s * (v j / ∑ l, v l) - ∑ t ∈ Finset.range m, if g t = j then 1 else 0)
    have := quad_form k hk x v g m s
    simp only at this
    rw [this] at h0
    linarith [h0, sq s]
  have hA : 0 ≤ sumPair k x g m := by simpa using hq 0
  have hM : 0 ≤ meanSq k x v := by
    have h0 := hpsd (fun j => 1 * (v j / ∑ l, v l) - ∑ t ∈ Finset.range 0, if g t = j then 1 else 0)
    have := quad_form k hk x v g 0 1
    simp only at this
    rw [this] at h0
    simpa [sumMean, sumPair] using h0
  refine ⟨hM, hA, ?_⟩
  have hd := discrim_le_zero hq
  unfold discrim at hd
  rw [← Real.sqrt_mul hM]
  exact Real.le_sqrt_of_sq_le (by nlinarith)

/-- One step of the growth of the bound. -/
theorem step_bound (q R : ℝ) (hq : 0 ≤ q) (hR : 0 ≤ R) (m : ℕ) :
    (m * q + Real.sqrt (R * m)) ^ 2 + R + 2 * q * (m * q + Real.sqrt (R * m))
      ≤ (((m : ℝ) + 1) * q + Real.sqrt (R * ((m : ℝ) + 1))) ^ 2 := by
  have hm : (0 : ℝ) ≤ m := Nat.cast_nonneg m
  have h1 := Real.sq_sqrt (mul_nonneg hR hm)
  have h2 := Real.sq_sqrt (mul_nonneg hR (by linarith : (0 : ℝ) ≤ (m : ℝ) + 1))
  have h3 : Real.sqrt (R * m) ≤ Real.sqrt (R * ((m : ℝ) + 1)) := Real.sqrt_le_sqrt (by nlinarith)
  have h5 : q * (((m : ℝ) + 1) * Real.sqrt (R * m)) ≤ q * (((m : ℝ) + 1) * Real.sqrt (R * ((m : ℝ) + 1))) :=
    mul_le_mul_of_nonneg_left (mul_le_mul_of_nonneg_left h3 (by linarith)) hq
  nlinarith

/-- With repetition. -/
theorem sumPair_le (k : X → X → ℝ) (hk : ∀ a b, k a b = k b a) (x : Fin n → X)
    (hpsd : ∀ c : Fin n → ℝ, 0 ≤ ∑ i, ∑ j, c i * c j * k (x i) (x j)) (w v : Fin n → ℝ) (hv : ∀ j, 0 ≤ v j) (hV : 0 < ∑ j, v j)
    (hvw : ∀ j, 0 < v j → 0 < w j) (g : ℕ → Fin n) (N : ℕ)
    (h : ∀ i < N, ∀ j, 0 < w j → steinObj k x g i (g i) ≤ steinObj k x g i j) (m : ℕ) (hm : m ≤ N) :
    sumPair k x g m ≤ (m * Real.sqrt (meanSq k x v) + Real.sqrt ((avg v fun j => k (x j) (x j)) * m)) ^ 2 := by
  have hD : 0 ≤ avg v fun j => k (x j) (x j) := by
    unfold avg
    refine div_nonneg (Finset.sum_nonneg fun j _ => mul_nonneg (hv j) ?_) hV.le
    have := hpsd (Pi.single j 1)
    simpa [Pi.single_apply] using this
  induction m with
  | zero => simp [sumPair]
  | succ m ih =>
    obtain ⟨hM, hA, hC⟩ := cauchy k hk x hpsd v g m
    have h1 : steinObj k x g m (g m) ≤ avg v (steinObj k x g m) := by
      have := avg_le v hv hV (fun j => - steinObj k x g m j) (-steinObj k x g m (g m))
        (fun j hj => neg_le_neg (h m (by omega) j (hvw j hj)))
      have e : avg v (fun j => - steinObj k x g m j) = - avg v (steinObj k x g m) := by
        unfold avg
        simp [neg_div]
      rw [e] at this
      linarith
    rw [avg_steinObj] at h1
    rw [sumPair_succ k hk]
    have hih := ih (by omega)
    set q := Real.sqrt (meanSq k x v) with hq
    set D := avg v fun j => k (x j) (x j) with hDd
    have hb : 0 ≤ m * q + Real.sqrt (D * m) := by positivity
    have ha : Real.sqrt (sumPair k x g m) ≤ m * q + Real.sqrt (D * m) := by
      rw [Real.sqrt_le_left hb]
      exact hih
    have hq0 : 0 ≤ q := Real.sqrt_nonneg _
    have hstep := step_bound q D hq0 hD m
    have h2 : q * Real.sqrt (sumPair k x g m) ≤ q * (m * q + Real.sqrt (D * m)) := mul_le_mul_of_nonneg_left ha hq0
    push_cast
    nlinarith

/-- Without repetition, equal weights. -/
theorem sumPair_le_unique (k : X → X → ℝ) (hk : ∀ a b, k a b = k b a) (x : Fin n → X)
    (hpsd : ∀ c : Fin n → ℝ, 0 ≤ ∑ i, ∑ j, c i * c j * k (x i) (x j)) (w : Fin n → ℝ) (u : ℝ) (hu : 0 < u)
    (hw : ∀ j, w j = 0 ∨ w j = u) (R : ℝ) (hR0 : 0 ≤ R) (hR : ∀ j, 0 < w j → k (x j) (x j) ≤ R) (g : ℕ → Fin n) (N : ℕ)
    (hpos : ∀ i < N, 0 < w (g i)) (hinj : ∀ i < N, ∀ t < i, g t ≠ g i)
    (h : ∀ i < N, ∀ j, 0 < w j → (∀ t < i, g t ≠ j) → steinObj k x g i (g i) ≤ steinObj k x g i j) (m : ℕ) (hm : m ≤ N) :
    sumPair k x g m ≤ (m * Real.sqrt (meanSq k x w) + Real.sqrt (R * m)) ^ 2 := by
  induction m with
  | zero => simp [sumPair]
  | succ m ih =>
    obtain ⟨hM, hA, hC⟩ := cauchy k hk x hpsd w g m
    set P := Finset.univ.filter (fun j => 0 < w j) with hP
    set U := (Finset.range m).image g with hU
    have hUP : U ⊆ P := by
      intro j hj
      obtain ⟨t, ht, rfl⟩ := Finset.mem_image.1 hj
      exact Finset.mem_filter.2 ⟨Finset.mem_univ _, hpos t (by have := Finset.mem_range.1 ht; omega)⟩
    have hinjOn : Set.InjOn g (Finset.range m : Set ℕ) := by
      intro a ha b hb hab
      have ha' : a < m := by simpa using ha
      have hb' : b < m := by simpa using hb
      rcases lt_trichotomy a b with hlt | heq | hlt
      · exact absurd hab (hinj b (by omega) a hlt)
      · exact heq
      · exact absurd hab.symm (hinj a (by omega) b hlt)
    have hcard : U.card = m := by rw [hU, Finset.card_image_of_injOn hinjOn, Finset.card_range]
    have hmem : g m ∈ P \ U := by
      refine Finset.mem_sdiff.2 ⟨Finset.mem_filter.2 ⟨Finset.mem_univ _, hpos m (by omega)⟩, fun hm' => ?_⟩
      obtain ⟨t, ht, he⟩ := Finset.mem_image.1 hm'
      exact hinj m (by omega) t (Finset.mem_range.1 ht) he
    have hwP : ∀ j ∈ P, w j = u := by
      intro j hj
      rcases hw j with h0 | h0
      · exact absurd (Finset.mem_filter.1 hj).2 (by rw [h0]; exact lt_irrefl _)
      · exact h0
    have havg : ∀ F : Fin n → ℝ, ∑ j ∈ P, F j = (P.card : ℝ) * avg w F := by
      intro F
      have hs : ∀ G : Fin n → ℝ, ∑ j, w j * G j = u * ∑ j ∈ P, G j := by
        intro G
        rw [Finset.mul_sum, ← Finset.sum_subset (Finset.subset_univ P)]
        · exact Finset.sum_congr rfl fun j hj => by rw [hwP j hj]
        · intro j _ hj
          have : w j = 0 := by
            rcases hw j with h0 | h0
            · exact h0
            · exact absurd (Finset.mem_filter.2 ⟨Finset.mem_univ _, by rw [h0]; exact hu⟩) hj
          rw [this, zero_mul]
      have hW : ∑ j, w j = u * P.card := by
        have := hs fun _ => 1
        simpa using this
      have hPc : 0 < (P.card : ℝ) := by
        have : 0 < P.card := Finset.card_pos.2 ⟨g m, (Finset.mem_sdiff.1 hmem).1⟩
        exact_mod_cast this
      unfold avg
      rw [hs, hW]
      field_simp
    have hc : ((P \ U).card : ℝ) = (P.card : ℝ) - m := by
      rw [Finset.card_sdiff_of_subset hUP, hcard, Nat.cast_sub]
      rw [← hcard]
      exact Finset.card_le_card hUP
    have hd1 : (1 : ℝ) ≤ (P.card : ℝ) - m := by
      rw [← hc]
      have : 1 ≤ (P \ U).card := Finset.card_pos.2 ⟨_, hmem⟩
      exact_mod_cast this
    set d := (P.card : ℝ) - m with hd
    have hNd : (P.card : ℝ) = d + m := by rw [hd]; ring
    -- the chosen objective is at most the mean of the remaining ones
    have hrem : d * steinObj k x g m (g m) ≤ ∑ j ∈ P \ U, steinObj k x g m j := by
      rw [← hc]
      have := Finset.card_nsmul_le_sum (P \ U) (steinObj k x g m) (steinObj k x g m (g m)) (fun j hj => by
        obtain ⟨h1, h2⟩ := Finset.mem_sdiff.1 hj
        refine h m (by omega) j (Finset.mem_filter.1 h1).2 fun t ht he => h2 ?_
        exact Finset.mem_image.2 ⟨t, Finset.mem_range.2 ht, he⟩)
      simpa [nsmul_eq_mul] using this
    have hcross : ∑ j ∈ P \ U, ∑ t ∈ Finset.range m, k (x j) (x (g t)) = (P.card : ℝ) * sumMean k x w g m - sumPair k x g m := by
      have h1 := Finset.sum_sdiff (f := fun j => ∑ t ∈ Finset.range m, k (x j) (x (g t))) hUP
      have h2 : ∑ j ∈ U, ∑ t ∈ Finset.range m, k (x j) (x (g t)) = sumPair k x g m := by
        rw [hU, Finset.sum_image hinjOn]
        rfl
      rw [havg, avg_sum_range, h2] at h1
      have h3 : ∑ t ∈ Finset.range m, (avg w fun j => k (x j) (x (g t))) = sumMean k x w g m := rfl
      rw [h3] at h1
      linarith
    have hdiag : ∑ j ∈ P \ U, k (x j) (x j) ≤ d * R := by
      rw [← hc]
      have := Finset.sum_le_card_nsmul (P \ U) (fun j => k (x j) (x j)) R
        (fun j hj => hR j (Finset.mem_filter.1 (Finset.mem_sdiff.1 hj).1).2)
      simpa [nsmul_eq_mul] using this
    have hobj : d * steinObj k x g m (g m) ≤ d * R + 2 * ((d + m) * sumMean k x w g m - sumPair k x g m) := by
      refine hrem.trans ?_
      unfold steinObj
      rw [Finset.sum_add_distrib, ← Finset.mul_sum, hcross, hNd]
      linarith
    rw [sumPair_succ k hk]
    have hih := ih (by omega)
    set q := Real.sqrt (meanSq k x w) with hq
    set a := Real.sqrt (sumPair k x g m) with ha
    have hA2 : sumPair k x g m = a ^ 2 := (Real.sq_sqrt hA).symm
    have hq0 : 0 ≤ q := Real.sqrt_nonneg _
    have ha0 : 0 ≤ a := Real.sqrt_nonneg _
    have hm0 : (0 : ℝ) ≤ m := Nat.cast_nonneg m
    have hb : 0 ≤ m * q + Real.sqrt (R * m) := by positivity
    have hab : a ≤ m * q + Real.sqrt (R * m) := by
      rw [ha, Real.sqrt_le_left hb]
      exact hih
    have hd0 : 0 < d := by linarith
    have hobj2 : d * steinObj k x g m (g m) ≤ d * R + 2 * ((d + m) * (q * a) - a ^ 2) := by
      have : (d + m) * sumMean k x w g m ≤ (d + m) * (q * a) := mul_le_mul_of_nonneg_left hC (by linarith)
      rw [hA2] at hobj
      linarith
    rw [hA2]
    push_cast
    rcases le_or_gt (m * q) a with hcase | hcase
    · have h1 : steinObj k x g m (g m) ≤ R + 2 * (q * a) := by
        have h2 : m * q * a ≤ a * a := mul_le_mul_of_nonneg_right hcase ha0
        have h3 : d * steinObj k x g m (g m) ≤ d * (R + 2 * (q * a)) := by nlinarith
        exact le_of_mul_le_mul_left h3 hd0
      have h4 := step_bound q R hq0 hR0 m
      have h5 : a ^ 2 ≤ (m * q + Real.sqrt (R * m)) ^ 2 := pow_le_pow_left₀ ha0 hab 2
      have h6 : q * a ≤ q * (m * q + Real.sqrt (R * m)) := mul_le_mul_of_nonneg_left hab hq0
      linarith
    · have hb1 : 0 ≤ m * q - a := by linarith
      have h1 : d * (a ^ 2 + steinObj k x g m (g m)) ≤ d * (R + (m ^ 2 + 2 * m) * q ^ 2) := by
        have h2 : 0 ≤ (m * q - a) * (d * (m * q + a) + 2 * d * q - 2 * a) := by
          refine mul_nonneg hb1 ?_
          have : m * q + a ≤ d * (m * q + a) := le_mul_of_one_le_left (by positivity) hd1
          have : 0 ≤ d * q := by positivity
          linarith
        nlinarith
      have h2 := le_of_mul_le_mul_left h1 hd0
      have h3 := Real.sq_sqrt (mul_nonneg hR0 (by linarith : (0 : ℝ) ≤ (m : ℝ) + 1))
      have h4 : 0 ≤ Real.sqrt (R * ((m : ℝ) + 1)) := Real.sqrt_nonneg _
      have h5 : 0 ≤ ((m : ℝ) + 1) * q * Real.sqrt (R * ((m : ℝ) + 1)) := by positivity
      have h6 : 0 ≤ R * m := by positivity
      nlinarith [sq_nonneg q]

end Rate

variable {X : Type*} [Zero X] {n : ℕ} [NeZero n] {m : ℕ}

theorem Rate.stein_of_reduce {k : X → X → ℝ} {x : Fin n → X} {w : Fin n → ℝ} {unique : Bool} {size : ℕ}
    {f : Fin size → Fin n} (h : SteinReduce k x w (fun _ => 0) (fun _ => 0) unique f) (i : ℕ) (hi : i < size) :
    0 < w (Rate.seq f i) ∧ (unique = true → ∀ t < i, Rate.seq f t ≠ Rate.seq f i) ∧
      ∀ j, 0 < w j → (unique = true → ∀ t < i, Rate.seq f t ≠ j) →
        Rate.steinObj k x (Rate.seq f) i (Rate.seq f i) ≤ Rate.steinObj k x (Rate.seq f) i j := by
  obtain ⟨⟨h1, h2⟩, h3⟩ := h ⟨i, hi⟩
  have e : Rate.seq f i = f ⟨i, hi⟩ := Rate.seq_fin f ⟨i, hi⟩
  refine ⟨by rw [e]; exact h1, fun hu t ht => ?_, fun j hj hju => ?_⟩
  · rw [e, Rate.seq_fin f ⟨t, ht.trans hi⟩]
    exact h2 hu _ ht
  · have h4 := (h3 j ⟨hj, fun hu t ht => by
      have := hju hu t ht
      rwa [Rate.seq_fin] at this⟩).1
    have hs : ∀ l, (∑ t : Fin size, if t < ⟨i, hi⟩ then k (x l) (x (f t)) else 0)
        = ∑ t ∈ Finset.range i, k (x l) (x (Rate.seq f t)) := by
      intro l
      rw [sum_castLE hi.le, Finset.sum_range]
      · refine Finset.sum_congr rfl fun t _ => ?_
        rw [if_pos (by rw [Fin.lt_def]; exact t.2), ← Rate.seq_fin f (t.castLE hi.le)]
        rfl
      · intro t ht
        rw [if_neg (by rw [Fin.lt_def]; simpa using ht)]
    beta_reduce at h4
    rw [hs, hs] at h4
    unfold Rate.steinObj
    rw [e]
    simpa using h4

theorem Rate.ksd_le {k : X → X → ℝ} {x : Fin n → X} {size : ℕ} (hsize : 0 < size) (f : Fin size → Fin n) {q R : ℝ} (hq : 0 ≤ q)
    (hR : 0 ≤ R) (h : Rate.sumPair k x (Rate.seq f) size ≤ (size * q + Real.sqrt (R * size)) ^ 2) :
    ksd k (fun t => x (f t)) (fun _ => 1) ≤ q + Real.sqrt (R / size) := by
  have hs : (0 : ℝ) < size := by positivity
  have e2 : Rate.sumPair k x (Rate.seq f) size = ∑ s, ∑ t, k (x (f s)) (x (f t)) := by
    unfold Rate.sumPair
    rw [Finset.sum_range]
    refine Finset.sum_congr rfl fun s _ => ?_
    rw [Finset.sum_range]
    exact Finset.sum_congr rfl fun t _ => by rw [Rate.seq_fin, Rate.seq_fin]
  rw [e2] at h
  unfold ksd
  rw [Real.sqrt_le_left (by positivity)]
  simp only [avg, one_mul, Finset.sum_const, Finset.card_univ, Fintype.card_fin, nsmul_eq_mul, mul_one]
  rw [← Finset.sum_div, div_div, div_le_iff₀ (by positivity)]
  refine h.trans (le_of_eq ?_)
  have e : Real.sqrt (R * size) = size * Real.sqrt (R / size) := by
    rw [show R * size = size ^ 2 * (R / size) by field_simp, Real.sqrt_mul (by positivity), Real.sqrt_sq hs.le]
  rw [e]
  ring

/-- With `unique=False` the discrepancy of the coreset exceeds that of *any* reweighting `v` of the positively weighted rows by at most
`sqrt (avg_v k(x, x) / size)`. -/
theorem C49_stein_rate (big : ℝ) (k : X → X → ℝ) (hk : ∀ a b, k a b = k b a) (bs : PyTree (Option ℤ)) (hbs : ValidBlock bs)
    (size : ℕ) (hsize : 0 < size) (pre : Data n X ℝ)
    (hpsd : ∀ c : Fin n → ℝ, 0 ≤ ∑ i, ∑ j, c i * c j * k (pre.data i) (pre.data j))
    (ord : List (Fin (size + (size - size)))) (hord : ∀ t, t ∈ ord) (hpos : PosCount pre.weights size) :
    ∃ f : Fin size → Fin n, steinReduce big k false bs size pre none ord = .ok ⟨fun t => (f t : ℤ), fun _ => 1⟩ ∧
      ∀ v : Fin n → ℝ, (∀ j, 0 ≤ v j) → 0 < ∑ j, v j → (∀ j, 0 < v j → 0 < pre.weights j) →
        ksd k (fun t => pre.data (f t)) (fun _ => 1)
          ≤ ksd k pre.data v + Real.sqrt ((avg v fun j => k (pre.data j) (pre.data j)) / size) := by
  obtain ⟨f, h1, h2, -⟩ := C15_reduce_greedy big k false bs hbs size hsize pre none ord hord hpos
  refine ⟨f, h1, fun v hv hV hvw => ?_⟩
  have hD : 0 ≤ avg v fun j => k (pre.data j) (pre.data j) := by
    unfold avg
    refine div_nonneg (Finset.sum_nonneg fun j _ => mul_nonneg (hv j) ?_) hV.le
    have := hpsd (Pi.single j 1)
    simpa [Pi.single_apply] using this
  exact Rate.ksd_le hsize f (Real.sqrt_nonneg _) hD
    (Rate.sumPair_le k hk pre.data hpsd pre.weights v hv hV hvw (Rate.seq f) size
      (fun i hi j hj => (Rate.stein_of_reduce h2 i hi).2.2 j hj (by simp)) size le_rfl)

/-- With `unique=True` and equally weighted rows the discrepancy of the coreset exceeds that of the data by at most `sqrt (max k(x, x) / size)`. -/
theorem C49_stein_rate_unique (big : ℝ) (k : X → X → ℝ) (hk : ∀ a b, k a b = k b a) (bs : PyTree (Option ℤ)) (hbs : ValidBlock bs)
    (size : ℕ) (hsize : 0 < size) (pre : Data n X ℝ)
    (hpsd : ∀ c : Fin n → ℝ, 0 ≤ ∑ i, ∑ j, c i * c j * k (pre.data i) (pre.data j)) (hu : UniformWeights pre.weights)
    (ord : List (Fin (size + (size - size)))) (hord : ∀ t, t ∈ ord) (hpos : PosCount pre.weights size)
    (R : ℝ) (hR : ∀ j, 0 < pre.weights j → k (pre.data j) (pre.data j) ≤ R) :
    ∃ f : Fin size → Fin n, steinReduce big k true bs size pre none ord = .ok ⟨fun t => (f t : ℤ), fun _ => 1⟩ ∧
      ksd k (fun t => pre.data (f t)) (fun _ => 1) ≤ ksd k pre.data pre.weights + Real.sqrt (R / size) := by
  obtain ⟨f, h1, h2, -⟩ := C15_reduce_greedy big k true bs hbs size hsize pre none ord hord hpos
  refine ⟨f, h1, ?_⟩
  obtain ⟨u, hu0, hu⟩ := hu
  have hR0 : 0 ≤ R := by
    obtain ⟨j, hj⟩ := Finset.card_pos.1 (lt_of_lt_of_le hsize hpos)
    refine le_trans ?_ (hR j (Finset.mem_filter.1 hj).2)
    have := hpsd (Pi.single j 1)
    simpa [Pi.single_apply] using this
  exact Rate.ksd_le hsize f (Real.sqrt_nonneg _) hR0
    (Rate.sumPair_le_unique k hk pre.data hpsd pre.weights u hu0 hu R hR0 hR (Rate.seq f) size
      (fun i hi => (Rate.stein_of_reduce h2 i hi).1) (fun i hi => (Rate.stein_of_reduce h2 i hi).2.1 rfl)
      (fun i hi j hj hju => (Rate.stein_of_reduce h2 i hi).2.2 j hj fun _ => hju) size le_rfl)

example := C49_stein_rate 1000 (fun a b : ℝ => 1 + a * b) (fun a b => by ring) (.leaf none) (.inl rfl) 2 (by norm_num) (⟨![1, 2, -4], ![1, 1, 1]⟩ : Data 3 ℝ ℝ)
  (fun c => ((isPSD_const zero_le_one).add (isPSD_rankOne fun x : ℝ => x)).2 _ _ c) [0, 1] (by decide) (by simp [PosCount, Finset.filter_true_of_mem, Fin.forall_fin_succ])

example := C49_stein_rate_unique 1000 (fun a b : ℝ => 1 + a * b) (fun a b => by ring) (.leaf none) (.inl rfl) 2 (by norm_num) (⟨![1, 2, -4], ![1, 1, 1]⟩ : Data 3 ℝ ℝ)
  (fun c => ((isPSD_const zero_le_one).add (isPSD_rankOne fun x : ℝ => x)).2 _ _ c) ⟨1, by norm_num, by intro i; fin_cases i <;> simp⟩ [0, 1] (by decide) (by simp [PosCount, Finset.filter_true_of_mem, Fin.forall_fin_succ])
  17 (by intro j _; fin_cases j <;> norm_num)

end Coreax
