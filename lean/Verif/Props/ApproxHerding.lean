import Verif.Model.ApproxHerding
import Verif.Props.HerdingRate
import Verif.Props.ApproximationCases
import Verif.Props.Metrics

/-!
# C63: herding with approximated kernel means
-/

set_option linter.unusedSectionVars false

namespace Coreax

open Greedy Spec

/-- The herding recursion with given means `r` in the place of the true ones: at step `i` the first maximiser of
`r_j - (1/(i+1)) Σ_{t<i} k(x_j, x_{f t})` over the positively weighted (and not yet chosen) points. -/
def Spec.HerdingWithMeans {X K : Type*} [Field K] [LinearOrder K] {n : ℕ} (k : X → X → K) (x : Fin n → X) (w r : Fin n → K) (unique : Bool) {size : ℕ}
    (f : Fin size → Fin n) : Prop :=
  ∀ i, Spec.IsFirstMax (fun j => 0 < w j ∧ (unique = true → ∀ t, t < i → f t ≠ j))
    (fun j => r j - (∑ t, if t < i then k (x j) (x (f t)) else 0) / ((i : ℕ) + 1 : K)) (f i)

section
variable {X K : Type*} [Zero X] [Field K] [LinearOrder K] [IsStrictOrderedRing K]
variable {n : ℕ} [NeZero n]

/-- C63: with any means in the solver state, `reduce` follows the recursion with these means, and hands them on. -/
theorem C63_given_means (big : K) (k : X → X → K) (unique : Bool)
    (bs : PyTree (Option ℤ)) (hbs : ValidBlock bs) (size : ℕ) (hsize : 0 < size) (hle : size ≤ n) (pre : Data n X K)
    (hen : if unique then PosCount pre.weights size else ∃ j, 0 < pre.weights j) (r : Fin n → K)
    (ord : List (Fin (size + (size - size)))) (hord : ∀ t, t ∈ ord) :
    ∃ f : Fin size → Fin n, herdingReduce big k none unique bs size pre (some (List.ofFn r)) ord
        = .ok (⟨fun t => (f t : ℤ), fun _ => 1⟩, List.ofFn r) ∧
      HerdingWithMeans k pre.data pre.weights r unique f := by
  have hen' : Enough pre.weights unique (size + (size - size)) := by
    unfold Enough
    cases unique
    · simpa using hen
    · simpa [PosCount] using hen
  have hz : ∀ t, (padIndices (⟨fun _ => 0, fun _ => 0⟩ : Data size ℤ K) size).weights t = 0 := by
    intro t
    refine Fin.addCases (fun a => ?_) (fun a => ?_) t <;> simp [padIndices, zeroPad]
  obtain ⟨off, s, g, hrun, hinv, hoff⟩ := Greedy.run big k pre hbs unique
    (herding_selects pre.weights (asVec n (List.ofFn r)))
    hsize (⟨fun _ => 0, fun _ => 0⟩ : Data size ℤ K) (inRange_zero size) hord hen'
  refine ⟨outRows g, ?_, fun i => ?_⟩
  · unfold herdingReduce initialCoresubset
    rw [if_neg (by omega)]
    simp only
    unfold herdingRefine cachedRowMean
    simp only [hrun]
    rfl
  · have h1 := Greedy.run_spec (fun _ t t' _ ht => absurd (hz t) ht.ne') hinv i
    simp only [asVec_ofFn, hoff ⟨1, one_pos, fun _ => Or.inl rfl⟩, zero_add] at h1
    simpa [Spec.Allowed, Spec.otherSum, Spec.otherCount, Spec.IsFirstMax] using h1

example : ∃ f : Fin 2 → Fin 3, herdingReduce 1000 (fun a b : ℚ => a * b + 1) none true (.leaf none) 2 ⟨![0, 1, 2], ![1, 0, 1]⟩ (some (List.ofFn ![1, 7, 3])) [0, 1]
      = .ok (⟨fun t => (f t : ℤ), fun _ => 1⟩, List.ofFn ![1, 7, 3]) ∧ HerdingWithMeans (fun a b : ℚ => a * b + 1) ![0, 1, 2] ![1, 0, 1] ![1, 7, 3] true f :=
  C63_given_means (n := 3) 1000 _ true (.leaf none) (by left; decide) 2 (by norm_num) (by norm_num) ⟨![0, 1, 2], ![1, 0, 1]⟩ (by unfold PosCount; decide +kernel) ![1, 7, 3] [0, 1] (by decide)

/-- C63: with an approximate kernel, `reduce` fails exactly if the size or the approximation does, and otherwise is herding with the approximate means. -/
theorem C63_approx_kernel (big : K) (k : X → X → K) (approx : (Fin n → X) → Except Err (Fin n → K)) (unique : Bool)
    (bs : PyTree (Option ℤ)) (size : ℕ) (pre : Data n X K) (ord : List (Fin (size + (size - size)))) :
    (n < size → herdingReduceApprox big k approx unique bs size pre ord = .error .valueError) ∧
    (size ≤ n → (∀ e, approx pre.data = .error e → herdingReduceApprox big k approx unique bs size pre ord = .error e) ∧
      ∀ r, approx pre.data = .ok r →
        herdingReduceApprox big k approx unique bs size pre ord = herdingReduce big k none unique bs size pre (some (List.ofFn r)) ord) := by
  unfold herdingReduceApprox herdingReduce initialCoresubset
  refine ⟨fun h => by rw [if_pos h], fun h => ?_⟩
  rw [if_neg (by omega)]
  exact ⟨fun e he => by simp only [he], fun r hr => by simp only [hr]⟩

/-- The recursion in terms of the scores of the potential argument. -/
theorem Rate.score_of_means {k : X → X → K} {x : Fin n → X} {w r : Fin n → K} {unique : Bool} {size : ℕ}
    {f : Fin size → Fin n} (h : HerdingWithMeans k x w r unique f) (i : ℕ) (hi : i < size) :
    0 < w (Rate.seq f i) ∧ (unique = true → ∀ t < i, Rate.seq f t ≠ Rate.seq f i) ∧
      ∀ j, 0 < w j → (unique = true → ∀ t < i, Rate.seq f t ≠ j) →
        ((i : K) + 1) * r j - ∑ t ∈ Finset.range i, k (x j) (x (Rate.seq f t))
          ≤ ((i : K) + 1) * r (Rate.seq f i) - ∑ t ∈ Finset.range i, k (x (Rate.seq f i)) (x (Rate.seq f t)) := by
  obtain ⟨⟨h1, h2⟩, h3, -⟩ := h ⟨i, hi⟩
  have e : Rate.seq f i = f ⟨i, hi⟩ := Rate.seq_fin f ⟨i, hi⟩
  refine ⟨by rw [e]; exact h1, fun hu t ht => ?_, fun j hj hju => ?_⟩
  · rw [e, Rate.seq_fin f ⟨t, ht.trans hi⟩]
    exact h2 hu _ ht
  · have h4 := h3 j ⟨hj, fun hu t ht => by
      have := hju hu t ht
      rwa [Rate.seq_fin] at this⟩
    have hs : ∀ l, (∑ t : Fin size, if t < ⟨i, hi⟩ then k (x l) (x (f t)) else 0)
        = ∑ t ∈ Finset.range i, k (x l) (x (Rate.seq f t)) := by
      intro l
      rw [sum_castLE hi.le, Finset.sum_range]
      · refine Finset.sum_congr rfl fun t _ => ?_
        rw [if_pos (by rw [Fin.lt_def]; exact t.2), ← Rate.seq_fin f (t.castLE hi.le)]
        rfl
      · intro t ht
        rw [if_neg (by rw [Fin.lt_def]; simpa using ht)]
    beta_reduce at h4
    rw [hs, hs] at h4
    have hp : (0 : K) < (i : K) + 1 := by positivity
    have h5 := mul_le_mul_of_nonneg_left h4 hp.le
    rw [e]
    simp only [mul_sub, mul_div_cancel₀ _ hp.ne'] at h5
    exact h5

theorem Rate.score_slack {k : X → X → K} {x : Fin n → X} {w v r : Fin n → K} {unique : Bool} {size : ℕ} {ε : K}
    (hr : ∀ j, 0 < w j → |r j - avg v fun l => k (x l) (x j)| ≤ ε)
    {f : Fin size → Fin n} (h : HerdingWithMeans k x w r unique f) (i : ℕ) (hi : i < size) (j : Fin n) (hj : 0 < w j)
    (hju : unique = true → ∀ t < i, Rate.seq f t ≠ j) :
    Rate.score k x v (Rate.seq f) i j ≤ Rate.score k x v (Rate.seq f) i (Rate.seq f i) + 2 * ε * ((i : K) + 1) := by
  obtain ⟨h1, -, h3⟩ := Rate.score_of_means h i hi
  have h4 := h3 j hj hju
  have a1 := (abs_le.1 (hr j hj)).1
  have a2 := (abs_le.1 (hr _ h1)).2
  have hp : (0 : K) < (i : K) + 1 := by positivity
  have b1 := mul_le_mul_of_nonneg_left a1 hp.le
  have b2 := mul_le_mul_of_nonneg_left a2 hp.le
  unfold Rate.score Rate.meanAt
  rw [mul_sub] at b1 b2
  linarith

theorem Rate.sum_slack (ε : K) (m : ℕ) : 2 * ∑ i ∈ Finset.range m, 2 * ε * ((i : K) + 1) = 2 * ε * m * (m + 1) := by
  induction m with
  | zero => simp
  | succ m ih =>
    rw [Finset.sum_range_succ, mul_add, ih]
    push_cast
    ring

/-- C63, repeated points allowed: if the means given to herding are within `ε` of the means of *some* weighting `v` of the rows of positive weight, the coreset
is within `(R - ‖μ_v‖²)/size + 2ε (size+1)/size` of the data weighted by `v`. -/
theorem C63_error (big : K) (k : X → X → K) (hk : ∀ a b, k a b = k b a)
    (bs : PyTree (Option ℤ)) (hbs : ValidBlock bs) (size : ℕ) (hsize : 0 < size) (hle : size ≤ n) (pre : Data n X K)
    (v : Fin n → K) (hv0 : ∀ j, 0 ≤ v j) (hv : 0 < ∑ j, v j) (hvw : ∀ j, 0 < v j → 0 < pre.weights j)
    (r : Fin n → K) (ε : K) (hr : ∀ j, 0 < pre.weights j → |r j - avg v fun l => k (pre.data l) (pre.data j)| ≤ ε)
    (ord : List (Fin (size + (size - size)))) (hord : ∀ t, t ∈ ord)
    (R : K) (hR : ∀ j, 0 < pre.weights j → k (pre.data j) (pre.data j) ≤ R) :
    ∃ f : Fin size → Fin n, herdingReduce big k none false bs size pre (some (List.ofFn r)) ord
        = .ok (⟨fun t => (f t : ℤ), fun _ => 1⟩, List.ofFn r) ∧
      mmdSq k pre.data v (fun t => pre.data (f t)) (fun _ => 1)
        ≤ (R - avg v fun i => avg v fun j => k (pre.data i) (pre.data j)) / size + 2 * ε * (size + 1) / size := by
  have hpos : ∃ j, 0 < pre.weights j := by
    by_contra hc
    push Not at hc
    refine hv.not_ge (Finset.sum_nonpos fun j _ => ?_)
    by_contra hj
    exact (hvw j (not_le.1 hj)).not_ge (hc j)
  obtain ⟨f, h1, h2⟩ := C63_given_means big k false bs hbs size hsize hle pre (by simpa using hpos) r ord hord
  refine ⟨f, h1, ?_⟩
  have hp := Rate.potential_le_slack k hk pre.data v hv0 hv R (Rate.seq f) size (fun i => 2 * ε * ((i : K) + 1))
    (fun i hi => hR _ (Rate.score_of_means h2 i hi).1)
    (fun i hi j hj => Rate.score_slack hr h2 i hi j (hvw j hj) (by simp)) size le_rfl
  rw [Rate.potential_eq_mmdSq k pre.data v hsize f _ (Rate.seq_fin f), Rate.sum_slack] at hp
  have hs : (0 : K) < size := by positivity
  rw [← add_div, le_div_iff₀ hs]
  have : (size : K) * ((size : K) * mmdSq k pre.data v (fun t => pre.data (f t)) (fun _ => 1))
      ≤ size * (R - Rate.meanSq k pre.data v + 2 * ε * (size + 1)) := by
    linarith [hp, sq (size : K)]
  have := le_of_mul_le_mul_left this hs
  rw [mul_comm]
  exact this

/-- C63, distinct points (the default) on equally weighted data. -/
theorem C63_error_unique (big : K) (k : X → X → K) (hk : ∀ a b, k a b = k b a)
    (bs : PyTree (Option ℤ)) (hbs : ValidBlock bs) (size : ℕ) (hsize : 0 < size) (pre : Data n X K)
    (hpsd : ∀ c : Fin n → K, 0 ≤ ∑ i, ∑ j, c i * c j * k (pre.data i) (pre.data j))
    (hu : UniformWeights pre.weights) (hpos : PosCount pre.weights size)
    (r : Fin n → K) (ε : K) (hr : ∀ j, 0 < pre.weights j → |r j - avg pre.weights fun l => k (pre.data l) (pre.data j)| ≤ ε)
    (ord : List (Fin (size + (size - size)))) (hord : ∀ t, t ∈ ord)
    (R : K) (hR : ∀ j, 0 < pre.weights j → k (pre.data j) (pre.data j) ≤ R) :
    ∃ f : Fin size → Fin n, herdingReduce big k none true bs size pre (some (List.ofFn r)) ord
        = .ok (⟨fun t => (f t : ℤ), fun _ => 1⟩, List.ofFn r) ∧ Function.Injective f ∧
      mmdSq k pre.data pre.weights (fun t => pre.data (f t)) (fun _ => 1)
        ≤ (R - (avg pre.weights fun i => avg pre.weights fun j => k (pre.data i) (pre.data j)) / 2) / size + 2 * ε * (size + 1) / size := by
  have hle : size ≤ n := by
    refine hpos.trans ?_
    simpa using Finset.card_le_univ (Finset.univ.filter (fun j => 0 < pre.weights j))
  obtain ⟨f, h1, h2⟩ := C63_given_means big k true bs hbs size hsize hle pre (by simpa using hpos) r ord hord
  obtain ⟨u, hu0, hu⟩ := hu
  refine ⟨f, h1, fun a b hab => ?_, ?_⟩
  · rcases lt_trichotomy a b with hlt | heq | hlt
    · exact absurd hab ((h2 b).1.2 rfl a hlt)
    · exact heq
    · exact absurd hab.symm ((h2 a).1.2 rfl b hlt)
  have hp := Rate.potential_le_unique_slack k hk pre.data hpsd pre.weights u hu0 hu R (Rate.seq f) size (fun i => 2 * ε * ((i : K) + 1))
    (fun i hi => hR _ (Rate.score_of_means h2 i hi).1) (fun i hi => (Rate.score_of_means h2 i hi).1)
    (fun i hi => (Rate.score_of_means h2 i hi).2.1 rfl)
    (fun i hi j hj hju => Rate.score_slack hr h2 i hi j hj fun _ => hju) size le_rfl
  rw [Rate.potential_eq_mmdSq k pre.data pre.weights hsize f _ (Rate.seq_fin f), Rate.sum_slack] at hp
  have hs : (0 : K) < size := by positivity
  rw [← add_div, le_div_iff₀ hs]
  have : (size : K) * ((size : K) * mmdSq k pre.data pre.weights (fun t => pre.data (f t)) (fun _ => 1))
      ≤ size * (R - Rate.meanSq k pre.data pre.weights / 2 + 2 * ε * (size + 1)) := by
    linarith [hp, sq (size : K)]
  have := le_of_mul_le_mul_left this hs
  rw [mul_comm]
  exact this

/-! ### The error does not vanish with the size -/

/-- Two values, 0 and 1, with similarity `1 - 2ε`. -/
def Spec.pairKernel (ε : K) (a b : ℤ) : K := if a = b then 1 else 1 - 2 * ε

/-- `N` rows with the value 0, then `N` rows with the value 1. -/
def Spec.pairRows (N : ℕ) : Fin (N + N) → ℤ := Fin.append (fun _ => 0) (fun _ => 1)

theorem avg_pairRows (N : ℕ) (hN : 0 < N) (F : ℤ → K) : avg (fun _ : Fin (N + N) => (1 : K)) (fun j => F (pairRows N j)) = (F 0 + F 1) / 2 := by
  unfold avg
  have hN' : (N : K) ≠ 0 := by positivity
  simp only [one_mul, Fin.sum_univ_add, pairRows, Fin.append_left, Fin.append_right, Finset.sum_const, Finset.card_univ, Fintype.card_fin, nsmul_eq_mul, mul_one]
  push_cast
  field_simp
  ring

/-- The kernel of the example is positive semi-definite. -/
theorem pairKernel_psd (ε : K) (h0 : 0 < ε) (h1 : ε ≤ 1 / 2) {n : ℕ} (x : Fin n → ℤ) (hx : ∀ j, x j = 0 ∨ x j = 1) (c : Fin n → K) :
    0 ≤ ∑ i, ∑ j, c i * c j * pairKernel ε (x i) (x j) := by
  have e : ∀ i j, c i * c j * pairKernel ε (x i) (x j) = (1 - 2 * ε) * (c i * c j)
      + 2 * ε * ((if x i = 0 then c i else 0) * (if x j = 0 then c j else 0)) + 2 * ε * ((if x i = 1 then c i else 0) * (if x j = 1 then c j else 0)) := by
    intro i j
    rcases hx i with h | h <;> rcases hx j with h' | h' <;> rw [h, h'] <;> simp [pairKernel] <;> ring
  simp only [e, Finset.sum_add_distrib, ← Finset.mul_sum, ← Finset.sum_mul]
  have h2 : 0 ≤ 1 - 2 * ε := by linarith
  have := mul_nonneg h2 (mul_self_nonneg (∑ i, c i))
  have := mul_nonneg (by linarith : 0 ≤ 2 * ε) (mul_self_nonneg (∑ i, if x i = 0 then c i else 0))
  have := mul_nonneg (by linarith : 0 ≤ 2 * ε) (mul_self_nonneg (∑ i, if x i = 1 then c i else 0))
  linarith

theorem pairRows_val (N : ℕ) (j : Fin (N + N)) : pairRows N j = 0 ∨ pairRows N j = 1 := by
  unfold pairRows
  refine Fin.addCases (fun a => ?_) (fun a => ?_) j
  · exact Or.inl (Fin.append_left _ _ a)
  · exact Or.inr (Fin.append_right _ _ a)

/-- C63: for every `ε` up to 1/2 there are data of any number of rows and means wrong by `ε` such that, whatever the size, herding with these means returns copies
of one value only, at a squared discrepancy of exactly `ε`. So the term with `ε` of `C63_error` cannot be made to vanish with the size, nor be replaced by one of
higher order. -/
theorem C63_error_stays (big ε : K) (h0 : 0 < ε) (hε : ε ≤ 1 / 2) (N : ℕ) [NeZero (N + N)] (bs : PyTree (Option ℤ)) (hbs : ValidBlock bs) :
    (∀ c : Fin (N + N) → K, 0 ≤ ∑ i, ∑ j, c i * c j * pairKernel ε (pairRows N i) (pairRows N j)) ∧
    ∃ r : Fin (N + N) → K, (∀ j, |r j - avg (fun _ => (1 : K)) fun l => pairKernel ε (pairRows N l) (pairRows N j)| = ε) ∧
      ∀ size, 0 < size → size ≤ N + N → ∀ ord : List (Fin (size + (size - size))), (∀ t, t ∈ ord) →
        ∃ f : Fin size → Fin (N + N), herdingReduce big (pairKernel ε) none false bs size (Data.ofArray (pairRows N)) (some (List.ofFn r)) ord
            = .ok (⟨fun t => (f t : ℤ), fun _ => 1⟩, List.ofFn r) ∧ (∀ t, pairRows N (f t) = 0) ∧
          mmdSq (pairKernel ε) (pairRows N) (fun _ => 1) (fun t => pairRows N (f t)) (fun _ => 1) = ε := by
  have hN : 0 < N := by have := NeZero.pos (N + N); omega
  have hval := pairRows_val N
  have hmean : ∀ b : ℤ, b = 0 ∨ b = 1 → avg (fun _ => (1 : K)) (fun l => pairKernel ε (pairRows N l) b) = 1 - ε := by
    intro b hb
    rw [avg_pairRows N hN fun a => pairKernel ε a b]
    rcases hb with rfl | rfl <;> simp only [pairKernel] <;> norm_num <;> ring
  refine ⟨pairKernel_psd ε h0 hε _ hval, fun j => pairKernel ε (pairRows N j) 0, fun j => ?_, fun size hsize hle ord hord => ?_⟩
  · beta_reduce
    rw [hmean _ (hval j)]
    rcases hval j with h | h <;> rw [h] <;> simp only [pairKernel]
    · rw [if_pos trivial, sub_sub_cancel, abs_of_pos h0]
    · rw [if_neg (by norm_num), show 1 - 2 * ε - (1 - ε) = -ε by ring, abs_neg, abs_of_pos h0]
  · obtain ⟨f, h1, h2⟩ := C63_given_means big (pairKernel ε) false bs hbs size hsize hle (Data.ofArray (pairRows N)) (by simp [Data.ofArray])
      (fun j => pairKernel ε (pairRows N j) 0) ord hord
    have hf : ∀ i : Fin size, pairRows N (f i) = 0 := by
      intro i
      obtain ⟨i, hi⟩ := i
      induction i using Nat.strong_induction_on with
      | _ i ih =>
        by_contra hne
        have h1' : pairRows N (f ⟨i, hi⟩) = 1 := (hval _).resolve_left hne
        obtain ⟨j0, hj0⟩ : ∃ j0, pairRows N j0 = 0 := ⟨Fin.castAdd N ⟨0, hN⟩, Fin.append_left _ _ _⟩
        have h3 := (h2 ⟨i, hi⟩).2.1 j0 ⟨by simp [Data.ofArray], by simp⟩
        have hsum : ∀ a : ℤ, (∑ t : Fin size, if t < ⟨i, hi⟩ then pairKernel ε a (pairRows N (f t)) else 0) = i * pairKernel ε a 0 := by
          intro a
          rw [sum_castLE hi.le]
          · rw [Finset.sum_congr rfl (g := fun _ => pairKernel ε a 0) fun t _ => ?_]
            · simp
            · rw [if_pos (by rw [Fin.lt_def]; exact t.2)]
              rw [show t.castLE hi.le = ⟨(t : ℕ), t.2.trans hi⟩ from rfl, ih t t.2 (t.2.trans hi)]
          · intro t ht
            rw [if_neg (by rw [Fin.lt_def]; simpa using ht)]
        simp only [Data.ofArray] at h3
        rw [hsum, hsum, h1', hj0] at h3
        simp only [pairKernel, if_true, if_neg (show ¬ (1 : ℤ) = 0 by norm_num)] at h3
        have hp : (0 : K) < (i : K) + 1 := by positivity
        have e1 : (1 : K) - i * 1 / ((i : K) + 1) = 1 / (i + 1) := by field_simp; ring
        have e2 : 1 - 2 * ε - i * (1 - 2 * ε) / ((i : K) + 1) = (1 - 2 * ε) / (i + 1) := by field_simp; ring
        rw [e1, e2, div_le_div_iff_of_pos_right hp] at h3
        linarith
    refine ⟨f, h1, hf, ?_⟩
    have hs : (size : K) ≠ 0 := by positivity
    unfold mmdSq
    have e : ∀ c : K, avg (fun _ : Fin size => (1 : K)) (fun _ => c) = c := by
      intro c
      unfold avg
      simp only [one_mul, Finset.sum_const, Finset.card_univ, Fintype.card_fin, nsmul_eq_mul, mul_one]
      field_simp
    have e' : ∀ a : ℤ, avg (fun _ => (1 : K)) (fun l => pairKernel ε a (pairRows N l)) = avg (fun _ => (1 : K)) (fun l => pairKernel ε (pairRows N l) a) := by
      intro a
      congr 1
      funext l
      simp only [pairKernel, eq_comm]
    have e2 : avg (fun _ : Fin (N + N) => (1 : K)) (fun _ => (1 - ε)) = 1 - ε := by
      have := avg_pairRows N hN (K := K) fun _ => 1 - ε
      rw [this]; ring
    simp only [hf, e, e', hmean _ (hval _), hmean 0 (Or.inl rfl), e2]
    simp only [pairKernel, if_true]
    ring

example := C63_error_stays (1000 : ℚ) (1 / 4) (by norm_num) (by norm_num) 3 (.leaf none) (by left; decide)

/-! ### Nyström means -/

/-- The weighting of the rows in the range of `S`. -/
def rangeWeights {n m : ℕ} (S : Fin m → Fin n) (j : Fin n) : K := if ∃ s, S s = j then 1 else 0

theorem avg_range {n m : ℕ} (S : Fin m → Fin n) (hS : Function.Injective S) (F : Fin n → K) :
    avg (rangeWeights S) F = avg (fun _ : Fin m => (1 : K)) fun s => F (S s) := by
  classical
  have e : ∀ G : Fin n → K, ∑ j, rangeWeights (K := K) S j * G j = ∑ s, G (S s) := by
    intro G
    unfold rangeWeights
    rw [← Finset.sum_image (s := Finset.univ) (f := G) (g := S) (fun a _ b _ h => hS h), ← Finset.sum_filter_add_sum_filter_not Finset.univ (fun j => ∃ s, S s = j)]
    rw [Finset.sum_congr rfl (g := G) (fun j hj => by rw [if_pos (Finset.mem_filter.1 hj).2, one_mul]),
      Finset.sum_congr (s₁ := Finset.univ.filter (fun j => ¬ ∃ s, S s = j)) rfl (g := fun _ => 0) (fun j hj => by rw [if_neg (Finset.mem_filter.1 hj).2, zero_mul]),
      Finset.sum_const_zero, add_zero]
    refine Finset.sum_congr ?_ fun _ _ => rfl
    ext j
    simp
  unfold avg
  have h1 := e fun _ => (1 : K)
  simp only [mul_one] at h1
  rw [e, h1]
  simp

/-- C63: herding with the Nyström kernel and as many training as kernel points (repeated points allowed) herds towards a subset of so many rows, not towards the
data: its discrepancy to the subset is that of exact herding on the subset. The weights of the data play no part. -/
theorem C63_nystrom {draw : IndexDraw} (hdraw : IndexDrawContract draw) {lstsq : RectLstsq K} (hl : RectLstsqContract lstsq) (big : K)
    (k : X → X → K) (hk : ∀ a b, k a b = k b a) {m : ℕ} (hm : 0 < m) (hmn : m ≤ n)
    (bs : PyTree (Option ℤ)) (hbs : ValidBlock bs) (size : ℕ) (hsize : 0 < size) (hle : size ≤ n) (pre : Data n X K) (hpos : ∀ j, 0 < pre.weights j)
    (hgram : ∀ S : Fin m → Fin n, (∀ s, draw n m s = ((S s : ℕ) : ℤ)) → IndepColumns (fun s j => k (pre.data (S s)) (pre.data (S j))))
    (ord : List (Fin (size + (size - size)))) (hord : ∀ t, t ∈ ord) (R : K) (hR : ∀ j, k (pre.data j) (pre.data j) ≤ R) :
    ∃ S : Fin m → Fin n, Function.Injective S ∧ (∀ s, draw n m s = ((S s : ℕ) : ℤ)) ∧ ∃ f : Fin size → Fin n, ∃ st,
      herdingReduceApprox big k (nystromRowMean draw lstsq big k m m) false bs size pre ord = .ok (⟨fun t => (f t : ℤ), fun _ => 1⟩, st) ∧
      mmdSq k (fun s => pre.data (S s)) (fun _ => 1) (fun t => pre.data (f t)) (fun _ => 1)
        ≤ (R - avg (fun _ : Fin m => (1 : K)) fun i => avg (fun _ : Fin m => (1 : K)) fun j => k (pre.data (S i)) (pre.data (S j))) / size := by
  obtain ⟨S, hSi, hS, hny⟩ := C32_nystrom_subset_mean hdraw hl big k hk hm hmn pre.data hgram
  have hm' : (m : K) ≠ 0 := by positivity
  have hv0 : ∀ j, (0 : K) ≤ rangeWeights S j := fun j => by unfold rangeWeights; split_ifs <;> simp
  have hv : (0 : K) < ∑ j, rangeWeights S j :=
    Finset.sum_pos' (fun j _ => hv0 j) ⟨S ⟨0, hm⟩, Finset.mem_univ _, by rw [rangeWeights, if_pos ⟨_, rfl⟩]; exact one_pos⟩
  obtain ⟨f, h1, h2⟩ := C63_error big k hk bs hbs size hsize hle pre (rangeWeights S) hv0 hv (fun j _ => hpos j)
    (fun i => (∑ j, k (pre.data i) (pre.data (S j))) / m) 0 (fun j _ => by
      rw [avg_range S hSi]
      unfold avg
      simp [hk (pre.data j)]) ord hord R (fun j _ => hR j)
  refine ⟨S, hSi, hS, f, _, ((C63_approx_kernel big k _ false bs size pre ord).2 hle |>.2 _ hny).trans h1, ?_⟩
  simp only [mmdSq, avg_range S hSi] at h2 ⊢
  simpa using h2

end

/-- C63: so the MMD between the data and the coreset of Nyström herding tends to the MMD between the data and the drawn subset, which more coreset points
do not reduce. -/
theorem C63_nystrom_limit {X : Type*} [Zero X] {n : ℕ} [NeZero n] {draw : IndexDraw} (hdraw : IndexDrawContract draw) {lstsq : RectLstsq ℝ}
    (hl : RectLstsqContract lstsq) (big : ℝ) (k : X → X → ℝ) (hk : IsPSD k) {m : ℕ} (hm : 0 < m) (hmn : m ≤ n)
    (bs : PyTree (Option ℤ)) (hbs : ValidBlock bs) (size : ℕ) (hsize : 0 < size) (hle : size ≤ n) (pre : Data n X ℝ) (hpos : ∀ j, 0 < pre.weights j)
    (hgram : ∀ S : Fin m → Fin n, (∀ s, draw n m s = ((S s : ℕ) : ℤ)) → IndepColumns (fun s j => k (pre.data (S s)) (pre.data (S j))))
    (ord : List (Fin (size + (size - size)))) (hord : ∀ t, t ∈ ord) (R : ℝ) (hR : ∀ j, k (pre.data j) (pre.data j) ≤ R) :
    ∃ S : Fin m → Fin n, Function.Injective S ∧ (∀ s, draw n m s = ((S s : ℕ) : ℤ)) ∧ ∃ f : Fin size → Fin n, ∃ st, ∃ a b,
      herdingReduceApprox big k (nystromRowMean draw lstsq big k m m) false bs size pre ord = .ok (⟨fun t => (f t : ℤ), fun _ => 1⟩, st) ∧
      mmdCompute big k pre (Data.ofArray fun t => pre.data (f t)) bs = .ok a ∧
      mmdCompute big k pre (Data.ofArray fun s => pre.data (S s)) bs = .ok b ∧ |a - b| ≤ Real.sqrt (R / size) := by
  obtain ⟨S, hSi, hS, f, st, h1, h2⟩ := C63_nystrom hdraw hl big k hk.1 hm hmn bs hbs size hsize hle pre hpos hgram ord hord R hR
  have hn := NeZero.pos n
  have hw : ∑ i, pre.weights i ≠ 0 := (Finset.sum_pos (fun j _ => hpos j) ⟨⟨0, hn⟩, Finset.mem_univ _⟩).ne'
  obtain ⟨a, b, c, ha, hb, hc, habc⟩ := C07_triangle big k hk hn hm hsize pre (Data.ofArray fun s => pre.data (S s)) (Data.ofArray fun t => pre.data (f t))
    hw (ofArray_sum hm _) (ofArray_sum hsize _) bs hbs
  obtain ⟨b', a', c', hb', ha', hc', habc'⟩ := C07_triangle big k hk hn hsize hm pre (Data.ofArray fun t => pre.data (f t)) (Data.ofArray fun s => pre.data (S s))
    hw (ofArray_sum hsize _) (ofArray_sum hm _) bs hbs
  have ea : a = a' := Except.ok.inj (ha.symm.trans ha')
  have eb : b = b' := Except.ok.inj (hb.symm.trans hb')
  have ec : c = c' := Except.ok.inj (hc.symm.trans ((C07_symm big k hk.1 hm hsize _ _ (ofArray_sum hm _) (ofArray_sum hsize _) bs bs hbs hbs).trans hc'))
  refine ⟨S, hSi, hS, f, st, a, b, h1, ha, hb, ?_⟩
  have hcb : c ≤ Real.sqrt (R / size) := by
    rw [C07_compute big k hm hsize _ _ (ofArray_sum hm _) (ofArray_sum hsize _) bs hbs] at hc
    rw [← Except.ok.inj hc]
    refine Real.sqrt_le_sqrt (max_le ?_ (h2.trans ?_))
    · have h0 : 0 ≤ k (pre.data (S ⟨0, hm⟩)) (pre.data (S ⟨0, hm⟩)) := by
        have := hk.2 1 (fun _ => pre.data (S ⟨0, hm⟩)) (fun _ => 1)
        simpa using this
      exact div_nonneg (h0.trans (hR _)) (by positivity)
    · refine div_le_div_of_nonneg_right ?_ (by positivity)
      have := hk.2 m (fun s => pre.data (S s)) (fun _ => 1 / (m : ℝ))
      have e : (avg (fun _ : Fin m => (1 : ℝ)) fun i => avg (fun _ : Fin m => (1 : ℝ)) fun j => k (pre.data (S i)) (pre.data (S j)))
          = ∑ i : Fin m, ∑ j : Fin m, (1 / (m : ℝ)) * (1 / (m : ℝ)) * k (pre.data (S i)) (pre.data (S j)) := by
        unfold avg
        simp only [one_mul, Finset.sum_const, Finset.card_univ, Fintype.card_fin, nsmul_eq_mul, mul_one, Finset.sum_div]
        refine Finset.sum_congr rfl fun i _ => Finset.sum_congr rfl fun j _ => ?_
        ring
      linarith
  rw [abs_le]
  constructor <;> linarith

/-! ### Cases -/

/-- The hypotheses of `C63_error` for three points, means wrong by up to 1/10, and a weighting other than that of the data. -/
example : ∃ f : Fin 2 → Fin 3, herdingReduce 1000 (fun a b : ℚ => a * b + 1) none false (.leaf none) 2 ⟨![0, 1, 2], ![1, 2, 1]⟩
      (some (List.ofFn ![1, 2 + 1 / 10, 3 - 1 / 10])) [0, 1] = .ok (⟨fun t => (f t : ℤ), fun _ => 1⟩, List.ofFn ![1, 2 + 1 / 10, 3 - 1 / 10]) ∧
    mmdSq (fun a b : ℚ => a * b + 1) ![0, 1, 2] ![0, 1, 0] (fun t => (![0, 1, 2] : Fin 3 → ℚ) (f t)) (fun _ => 1)
      ≤ (5 - avg (![0, 1, 0] : Fin 3 → ℚ) fun i => avg (![0, 1, 0] : Fin 3 → ℚ) fun j => (![0, 1, 2] : Fin 3 → ℚ) i * (![0, 1, 2] : Fin 3 → ℚ) j + 1) / ((2 : ℕ) : ℚ)
        + 2 * (1 / 10) * (((2 : ℕ) : ℚ) + 1) / ((2 : ℕ) : ℚ) :=
  C63_error (n := 3) 1000 (fun a b : ℚ => a * b + 1) (fun a b => by ring) (.leaf none) (by left; decide) 2 (by norm_num) (by norm_num)
    ⟨![0, 1, 2], ![1, 2, 1]⟩ ![0, 1, 0] (by decide +kernel) (by decide +kernel) (by decide +kernel) _ (1 / 10) (by decide +kernel) [0, 1] (by decide) 5
    (by decide +kernel)

/-- `C63_error_unique` applies to the equally weighted points with the exact means 2 of the kernel `a b + 1` at 1 wrong by 1/10. -/
example : ∃ f : Fin 2 → Fin 3, herdingReduce 1000 (fun a b : ℚ => a * b + 1) none true (.leaf none) 2 ⟨![0, 1, 2], ![1, 1, 1]⟩
      (some (List.ofFn ![1, 2 + 1 / 10, 3])) [0, 1] = .ok (⟨fun t => (f t : ℤ), fun _ => 1⟩, List.ofFn ![1, 2 + 1 / 10, 3]) ∧ Function.Injective f ∧
    mmdSq (fun a b : ℚ => a * b + 1) ![0, 1, 2] ![1, 1, 1] (fun t => (![0, 1, 2] : Fin 3 → ℚ) (f t)) (fun _ => 1)
      ≤ (5 - (avg (![1, 1, 1] : Fin 3 → ℚ) fun i => avg (![1, 1, 1] : Fin 3 → ℚ) fun j => (![0, 1, 2] : Fin 3 → ℚ) i * (![0, 1, 2] : Fin 3 → ℚ) j + 1) / 2)
          / ((2 : ℕ) : ℚ) + 2 * (1 / 10) * (((2 : ℕ) : ℚ) + 1) / ((2 : ℕ) : ℚ) :=
  C63_error_unique (n := 3) 1000 (fun a b : ℚ => a * b + 1) (fun a b => by ring) (.leaf none) (by left; decide) 2 (by norm_num)
    ⟨![0, 1, 2], ![1, 1, 1]⟩ (fun c => by
      have e : ∑ i, ∑ j, c i * c j * ((![0, 1, 2] : Fin 3 → ℚ) i * (![0, 1, 2] : Fin 3 → ℚ) j + 1) = (c 1 + 2 * c 2) ^ 2 + (c 0 + c 1 + c 2) ^ 2 := by
        simp only [Fin.sum_univ_three]
        simp only [Matrix.cons_val_zero, Matrix.cons_val_one, Matrix.cons_val]
        ring
      rw [show (∑ i, ∑ j, c i * c j * _) = _ from e]
      positivity)
    ⟨1, one_pos, by decide +kernel⟩ (by unfold PosCount; decide +kernel) _ (1 / 10) (by decide +kernel) [0, 1] (by decide) 5 (by decide +kernel)

/-- The hypotheses of `C63_nystrom` can be met: two points, one of them drawn. -/
example : ∃ lstsq : RectLstsq ℝ, ∃ S : Fin 1 → Fin 2, Function.Injective S ∧ (∀ s : Fin 1, ((s : ℕ) : ℤ) = ((S s : ℕ) : ℤ)) ∧ ∃ f : Fin 2 → Fin 2, ∃ st,
    herdingReduceApprox 1000 deltaKernel (nystromRowMean (fun _ _ s => ((s : ℕ) : ℤ)) lstsq 1000 deltaKernel 1 1) false (.leaf none) 2
      ⟨(id : Fin 2 → Fin 2), ![1, 3]⟩ [0, 1] = .ok (⟨fun t => (f t : ℤ), fun _ => 1⟩, st) ∧
    mmdSq deltaKernel (fun s => id (S s)) (fun _ => 1) (fun t => id (f t)) (fun _ => 1)
      ≤ (1 - avg (fun _ : Fin 1 => (1 : ℝ)) fun i => avg (fun _ : Fin 1 => (1 : ℝ)) fun j => deltaKernel (id (S i)) (id (S j))) / ((2 : ℕ) : ℝ) := by
  obtain ⟨lstsq, h⟩ := exists_rectLstsq
  refine ⟨lstsq, C63_nystrom (n := 2) firstIndices_contract h 1000 deltaKernel deltaKernel_symm (m := 1) (by norm_num) (by norm_num) (.leaf none)
    (by left; decide) 2 (by norm_num) (by norm_num) ⟨(id : Fin 2 → Fin 2), ![1, 3]⟩ (fun j => by fin_cases j <;> simp) (fun S _ z hz j => ?_) [0, 1] (by decide) 1
    (fun j => by simp [deltaKernel])⟩
  have := hz j
  rw [Fin.sum_univ_one, Subsingleton.elim j 0] at this
  simpa [deltaKernel, Subsingleton.elim j 0] using this

end Coreax
