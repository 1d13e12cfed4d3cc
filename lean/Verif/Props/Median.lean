import Verif.Lemmas.Median
import Verif.Props.Thinning
import Mathlib.Analysis.Complex.ExponentialBounds

/-!
# C43: the median heuristic; C44: the failure probability for kernel thinning
-/

set_option linter.unusedSectionVars false

namespace Coreax

open Finset Spec

section median
variable {n d : ℕ}

/-- C43: for two or more points the heuristic is the square root of half the conventional median of the squared distances over pairs of distinct indices. -/
theorem C43_is_median (x : Fin n → Vec d) (hn : 2 ≤ n) :
    ∃ m, IsMidMedianDistance x m ∧ medianHeuristic x = some (Real.sqrt (m / 2)) := by
  have hne := (pairDistances_ne_nil_iff x).2 hn
  exact ⟨_, ⟨_, _, isMedian_iff x hn, lowMid_le_highMid hne, rfl⟩, by rw [medianHeuristic, medianOf_eq hne]; rfl⟩

example := C43_is_median (![![0, 0], ![1, 2], ![3, 4]] : Fin 3 → Vec 2) (by norm_num)

/-- C43: the result is NaN exactly for fewer than two points. -/
theorem C43_nan_iff (x : Fin n → Vec d) : medianHeuristic x = none ↔ n < 2 := by
  constructor
  · intro h
    by_contra hn
    obtain ⟨m, -, hm⟩ := C43_is_median x (by omega)
    simp [hm] at h
  · intro hn
    have : pairDistances x = [] := by
      by_contra h
      exact absurd ((pairDistances_ne_nil_iff x).1 h) (by omega)
    simp [medianHeuristic, medianOf, this]

/-- Counts of pairs do not depend on the order of the points. -/
theorem pairCount_perm {X : Type*} (x : Fin n → X) (σ : Equiv.Perm (Fin n)) (p : X → X → Prop) :
    pairCount (x ∘ σ) p = pairCount x p := by
  unfold pairCount
  refine Finset.card_bij (fun q _ => (σ q.1, σ q.2)) ?_ ?_ ?_
  · intro q hq
    simpa using hq
  · intro a _ b _ h
    exact Prod.ext (σ.injective (congrArg Prod.fst h)) (σ.injective (congrArg Prod.snd h))
  · intro b hb
    exact ⟨(σ.symm b.1, σ.symm b.2), by simpa using hb, by simp⟩

/-- Two datasets with the same medians get the same bandwidth. -/
theorem medianHeuristic_congr {n' d' : ℕ} {x : Fin n → Vec d} {y : Fin n' → Vec d'} (hn : n < 2 ↔ n' < 2)
    (h : ∀ v, IsMedianDistance x v ↔ IsMedianDistance y v) : medianHeuristic x = medianHeuristic y := by
  by_cases hlt : n < 2
  · rw [(C43_nan_iff x).2 hlt, (C43_nan_iff y).2 (hn.1 hlt)]
  · obtain ⟨m, hm, e⟩ := C43_is_median x (by omega)
    obtain ⟨m', hm', e'⟩ := C43_is_median y (by omega)
    have : m = m' := by
      obtain ⟨a, b, hab, hle, rfl⟩ := hm
      exact IsMidMedianDistance.unique ⟨a, b, fun w => (h w).symm.trans (hab w), hle, rfl⟩ hm'
    rw [e, e', this]

/-- C43: the order of the points does not matter. -/
theorem C43_permutation (x : Fin n → Vec d) (σ : Equiv.Perm (Fin n)) : medianHeuristic (x ∘ σ) = medianHeuristic x :=
  medianHeuristic_congr Iff.rfl fun v => by simp only [IsMedianDistance, pairCount_perm]

/-- C43: moving all points by the same vector changes nothing. -/
theorem C43_translation (x : Fin n → Vec d) (t : Vec d) : medianHeuristic (fun i => x i + t) = medianHeuristic x := by
  refine medianHeuristic_congr Iff.rfl fun v => ?_
  have : ∀ p : ℝ → Prop, pairCount (fun i => x i + t) (fun a b => p (∑ i, (a i - b i) ^ 2)) =
      pairCount x (fun a b => p (∑ i, (a i - b i) ^ 2)) := by
    intro p; unfold pairCount
    congr 1
    ext q
    simp
  simp only [IsMedianDistance]
  rw [this (fun _ => True), this (fun s => s ≤ v), this (fun s => v ≤ s)]

theorem sqDist_smul (c : ℝ) (a b : Vec d) : sqDist (c • a) (c • b) = c ^ 2 * sqDist a b := by
  simp only [sqDist_eq, Finset.mul_sum]
  exact Finset.sum_congr rfl fun i _ => by simp only [Pi.smul_apply, smul_eq_mul]; ring

/-- Sorting commutes with multiplication by a non-negative number. -/
theorem mergeSort_map_mul (l : List ℝ) (c : ℝ) (hc : 0 ≤ c) :
    (l.map (c * ·)).mergeSort (· ≤ ·) = (l.mergeSort (· ≤ ·)).map (c * ·) := by
  refine List.Perm.eq_of_pairwise (le := (· ≤ ·)) (fun a b _ _ h1 h2 => le_antisymm h1 h2) (sortedList _) ?_ ?_
  · rw [List.pairwise_map]
    exact (sortedList l).imp fun h => mul_le_mul_of_nonneg_left h hc
  · exact (List.mergeSort_perm _ _).trans ((List.mergeSort_perm l _).map _).symm

/-- C43: multiplying all points by a number multiplies the bandwidth by its absolute value. -/
theorem C43_scale (x : Fin n → Vec d) (c : ℝ) : medianHeuristic (fun i => c • x i) = (medianHeuristic x).map (|c| * ·) := by
  have hp : pairDistances (fun i => c • x i) = (pairDistances x).map (c ^ 2 * ·) := by
    simp only [pairDistances, List.map_flatMap, List.map_map, sqDist_smul]
    rfl
  unfold medianHeuristic medianOf
  rw [hp, List.length_map, mergeSort_map_mul _ _ (sq_nonneg c)]
  by_cases h : (pairDistances x).length = 0
  · simp [h]
  · have hget : ∀ k, ((pairDistances x).mergeSort (· ≤ ·) |>.map (c ^ 2 * ·)).getD k 0 =
        c ^ 2 * ((pairDistances x).mergeSort (· ≤ ·)).getD k 0 := by
      intro k
      have := List.getD_map (l := (pairDistances x).mergeSort (· ≤ ·)) (d := (0 : ℝ)) (n := k) (c ^ 2 * ·)
      simpa using this
    rw [if_neg h, if_neg h, hget, hget]
    simp only [Option.map_some, Option.some.injEq]
    rw [← mul_add, mul_div_assoc, mul_div_assoc, Real.sqrt_mul (sq_nonneg c), Real.sqrt_sq_eq_abs]

theorem sqDist_nonpos_iff (a b : Vec d) : ∑ i, (a i - b i) ^ 2 ≤ 0 ↔ a = b := by
  constructor
  · intro h
    have h0 : ∑ i, (a i - b i) ^ 2 = 0 := le_antisymm h (Finset.sum_nonneg fun _ _ => sq_nonneg _)
    rw [Finset.sum_eq_zero_iff_of_nonneg fun _ _ => sq_nonneg _] at h0
    funext i
    exact sub_eq_zero.1 (pow_eq_zero_iff (by norm_num) |>.1 (h0 i (mem_univ i)))
  · rintro rfl; simp

/-- C43: the bandwidth is zero exactly if more than half of the pairs of distinct indices carry equal points. -/
theorem C43_zero_iff (x : Fin n → Vec d) :
    medianHeuristic x = some 0 ↔ 2 ≤ n ∧ n * (n - 1) < 2 * pairCount x (fun a b => a = b) := by
  by_cases hn : 2 ≤ n
  · have hne := (pairDistances_ne_nil_iff x).2 hn
    have hlow : 0 ≤ lowMid (pairDistances x) := by
      by_contra hc
      push Not at hc
      obtain ⟨v, hv, hv0⟩ := exists_between hc
      have := (lowMid_le_iff hne v).1 hv.le
      have hz : (pairDistances x).countP (fun a => decide (a ≤ v)) = 0 := by
        rw [List.countP_eq_zero]
        intro a ha
        simp only [pairDistances, List.mem_flatMap, List.mem_map] at ha
        obtain ⟨i, -, j, -, rfl⟩ := ha
        have : 0 ≤ sqDist (x i) (x j) := by rw [sqDist_eq]; exact Finset.sum_nonneg fun _ _ => sq_nonneg _
        simp only [decide_eq_true_eq, not_le]
        linarith
      have := List.length_pos_iff.2 hne
      omega
    have hle := lowMid_le_highMid hne
    have hcount : pairCount x (fun a b => a = b) = 2 * (pairDistances x).countP (fun a => decide (a ≤ 0)) := by
      rw [two_mul_countP x (fun a => a ≤ 0)]
      simp only [sqDist_nonpos_iff]
    have hlen := two_mul_length x
    rw [pairCount_true] at hlen
    rw [medianHeuristic, medianOf_eq hne, hcount]
    simp only [Option.map_some, Option.some.injEq, hn, true_and]
    have : (pairDistances x).length < 2 * (pairDistances x).countP (fun a => decide (a ≤ 0)) ↔ highMid (pairDistances x) ≤ 0 :=
      (highMid_le_iff hne 0).symm
    rw [Real.sqrt_eq_zero (by linarith)]
    constructor
    · intro h
      have := this.2 (by linarith)
      omega
    · intro h
      have := this.1 (by omega)
      linarith
  · rw [(C43_nan_iff x).2 (by omega)]
    simp [hn]

/-- C43, consequence: with more than half of the pairs equal, the squared exponential kernel cannot be built with the heuristic's length scale
(nor any other kernel with a length scale); with the bandwidth positive, it can. -/
theorem C43_kernel_construction (x : Fin n → Vec d) (v : ℝ) (hv : medianHeuristic x = some v) :
    (KExpr.check (.squaredExponential v 1 : KExpr d) = .error .valueError ↔
      n * (n - 1) < 2 * pairCount x (fun a b => a = b)) := by
  have hn : 2 ≤ n := by
    by_contra h
    rw [(C43_nan_iff x).2 (by omega)] at hv; simp at hv
  have h0 : 0 ≤ v := by
    obtain ⟨m, -, hm⟩ := C43_is_median x hn
    rw [hm] at hv
    cases hv
    exact Real.sqrt_nonneg _
  have hz := C43_zero_iff x
  rw [hv] at hz
  simp only [Option.some.injEq, hn, true_and] at hz
  rw [← hz]
  simp only [KExpr.check, checkPos]
  constructor
  · intro h
    by_contra hne
    have : ¬ v ≤ 0 := fun hle => hne (le_antisymm hle h0)
    simp [this, bind, Except.bind] at h
  · rintro rfl
    simp [bind, Except.bind]

end median

/-- Four points of which three coincide: half of the pairs, so the bandwidth is not zero. -/
example : medianHeuristic (![![0], ![0], ![0], ![2]] : Fin 4 → Vec 1) ≠ some 0 := by
  intro h
  have h2 := ((C43_zero_iff _).1 h).2
  have : pairCount (![![0], ![0], ![0], ![2]] : Fin 4 → Vec 1) (fun a b => a = b) ≤ 6 := by
    classical
    unfold pairCount
    refine (Finset.card_le_card (t := {(0, 1), (1, 0), (0, 2), (2, 0), (1, 2), (2, 1)}) ?_).trans (by decide)
    intro q hq
    simp only [Finset.mem_filter, Finset.mem_univ, true_and] at hq
    obtain ⟨i, j⟩ := q
    fin_cases i <;> fin_cases j <;> simp at hq ⊢
  omega

/-- Two points at distance two. -/
example : medianHeuristic (![![0], ![2]] : Fin 2 → Vec 1) = some (Real.sqrt 2) := by
  have hl : pairDistances (![![0], ![2]] : Fin 2 → Vec 1) = [4] := by
    simp [pairDistances, List.finRange_succ, sqDist]; norm_num
  have : (4 : ℝ) / 2 = 2 := by norm_num
  simp [medianHeuristic, medianOf, hl, -Real.sqrt_div', this]

/-! ### The failure probability -/

theorem log_three_bounds : 1 < Real.log 3 ∧ Real.log 3 < 7 / 6 := by
  have h1 := Real.exp_one_lt_d9
  have h2 := Real.exp_one_gt_d9
  constructor
  · rw [Real.lt_log_iff_exp_lt (by norm_num)]; linarith
  · rw [Real.log_lt_iff_lt_exp (by norm_num), show (7 : ℝ) / 6 = 1 + 1 / 6 by norm_num, Real.exp_add]
    have := Real.add_one_le_exp (1 / 6 : ℝ)
    nlinarith

theorem log_log_four : 1 / 4 < Real.log (Real.log 4) := by
  have h4 : Real.log 4 = 2 * Real.log 2 := by
    rw [show (4 : ℝ) = 2 ^ 2 by norm_num, Real.log_pow]; norm_num
  have h2 := Real.log_two_gt_d9
  have hpos : 0 < Real.log 4 := by rw [h4]; linarith
  rw [Real.lt_log_iff_exp_lt hpos, h4]
  have he : Real.exp (1 / 4) < 1.3 := by
    by_contra hc
    push Not at hc
    have h : Real.exp (1 / 4) ^ 4 = Real.exp 1 := by rw [← Real.exp_nat_mul]; norm_num
    have : (1.3 : ℝ) ^ 4 ≤ Real.exp (1 / 4) ^ 4 := pow_le_pow_left₀ (by norm_num) hc 4
    have := Real.exp_one_lt_d9
    rw [h] at *
    norm_num at *
    linarith
  linarith

/-- C44: at three points the value is no probability: it is more than two. -/
theorem C44_delta_three : 2 < calculateDelta 3 := by
  obtain ⟨h1, h2⟩ := log_three_bounds
  have hpos : 0 < Real.log (Real.log 3) := Real.log_pos h1
  have hlt : Real.log (Real.log 3) < 1 / 6 := by
    refine (Real.log_le_sub_one_of_pos (by linarith)).trans_lt ?_
    linarith
  have e : calculateDelta 3 = 1 / (3 * Real.log (Real.log 3)) := by
    simp only [calculateDelta, Nat.cast_ofNat, if_pos (zero_lt_one.trans h1), if_pos hpos]
  rw [e, lt_div_iff₀ (by linarith)]
  linarith

/-- C44: the value is positive for every number of points, and it is a probability for every number of points but three. -/
theorem C44_delta_range (n : ℕ) (hn : 1 ≤ n) : 0 < calculateDelta n ∧ (calculateDelta n ≤ 1 ↔ n ≠ 3) := by
  have hn' : (1 : ℝ) ≤ n := by exact_mod_cast hn
  have hpos : 0 < calculateDelta n := by
    unfold calculateDelta
    simp only
    split_ifs <;> positivity
  refine ⟨hpos, ⟨?_, ?_⟩⟩
  · rintro h rfl
    linarith [C44_delta_three]
  · intro h3
    rcases Nat.lt_or_ge n 4 with h | h
    · have : n = 1 ∨ n = 2 := by omega
      rcases this with rfl | rfl
      · simp [calculateDelta]
      · have hl := Real.log_two_gt_d9
        have hu := Real.log_two_lt_d9
        have hlog : Real.log 2 > 0 := by linarith
        have hll : ¬ 0 < Real.log (Real.log 2) := not_lt.2 (Real.log_nonpos hlog.le (by linarith))
        simp only [calculateDelta, Nat.cast_ofNat, if_pos hlog, if_neg hll]
        rw [div_le_one (by positivity)]
        linarith
    · have h4 : (4 : ℝ) ≤ n := by exact_mod_cast h
      have hl4 : 0 < Real.log 4 := Real.log_pos (by norm_num)
      have hmono : Real.log 4 ≤ Real.log n := Real.log_le_log (by norm_num) h4
      have hll : 1 / 4 < Real.log (Real.log n) := log_log_four.trans_le (Real.log_le_log hl4 hmono)
      have h0 : 0 < Real.log n := hl4.trans_le hmono
      simp only [calculateDelta, if_pos h0, if_pos ((by norm_num : (0 : ℝ) < 1 / 4).trans hll)]
      rw [div_le_one (by nlinarith)]
      nlinarith

example := C44_delta_range 1000 (by norm_num)

/-- C44, consequence: the number under the square root in kernel thinning is positive for every number of points but three, where it is negative,
so that the square root is NaN. -/
theorem C44_radicand (n : ℕ) (hn : 1 ≤ n) :
    (n ≠ 3 → 0 < thinningRadicand (calculateDelta n)) ∧ (n = 3 → thinningRadicand (calculateDelta n) < 0) := by
  obtain ⟨hpos, hle⟩ := C44_delta_range n hn
  constructor
  · intro h
    have := hle.2 h
    unfold thinningRadicand
    have : 1 < 2 / calculateDelta n := by rw [lt_div_iff₀ hpos]; linarith
    have := Real.log_pos this
    linarith
  · rintro rfl
    have h3 := C44_delta_three
    unfold thinningRadicand
    have : 2 / calculateDelta 3 < 1 := by rw [div_lt_one hpos]; exact h3
    have := Real.log_neg (by positivity) this
    linarith

example := C44_radicand 1000 (by norm_num)

section noRandomness
variable {X K : Type*} [Field K] [LinearOrder K] [IsStrictOrderedRing K] {h : ℕ} [NeZero (2 * h)]

/-- C44, consequence: with the square root NaN kernel halving ignores its random numbers and the data: it puts the even positions into the first half and
the odd ones into the second. -/
theorem C44_nan_deterministic (root : K → K) (k : X → X → K) (u : ℕ → K) (x : Fin (2 * h) → X) (i : Fin h) :
    (ktHalf root k Ext.nan u x).1 i = 2 * (i : ℤ) ∧ (ktHalf root k Ext.nan u x).2 i = 2 * (i : ℤ) + 1 := by
  obtain ⟨e, σ, -, hrun, hall⟩ := ktHalf_run root k Ext.nan u x
  have hA : ∀ b s : Ext K, ktA Ext.nan b s = Ext.nan := by
    intro b s
    have h1 : ∀ y : Ext K, y * Ext.nan = Ext.nan := fun y => by cases y <;> rfl
    unfold ktA
    rw [h1]
    cases (b * b) <;> rfl
  have he : e i = false := by rw [(hall i).2, hA, ktSwap_nan]
  rw [hrun]
  simp only [pairAt_coe, he]
  constructor <;> simp

end noRandomness

end Coreax
