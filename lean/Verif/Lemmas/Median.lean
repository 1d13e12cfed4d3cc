import Verif.Model.Util
import Verif.Spec.Util
import Mathlib.Data.List.Sort
import Mathlib.Data.List.GetD
import Mathlib.Tactic.IntervalCases

/-!
# Lemmas on sorted lists, counts and medians
-/

set_option linter.unusedSectionVars false

namespace Coreax

open Finset Spec

section lists

theorem sorted_count_le {l : List ℝ} (h : l.Pairwise (· ≤ ·)) (v : ℝ) (k : ℕ) (hk : k < l.length) :
    k + 1 ≤ l.countP (fun a => decide (a ≤ v)) ↔ l[k] ≤ v := by
  induction l generalizing k with
  | nil => simp at hk
  | cons a l ih =>
    rw [List.pairwise_cons] at h
    rw [List.countP_cons]
    by_cases ha : a ≤ v
    · rcases k with _ | k
      · simp [ha]
      · simp only [ha, decide_true, if_true, List.getElem_cons_succ, add_le_add_iff_right]
        exact ih h.2 k (by simpa using hk)
    · have h0 : l.countP (fun a => decide (a ≤ v)) = 0 := by
        rw [List.countP_eq_zero]
        intro b hb
        simpa using (not_le.1 ha).trans_le (h.1 b hb)
      simp only [ha, decide_false, h0]
      constructor
      · intro hc; simp at hc
      · intro hc
        rcases k with _ | k
        · exact absurd hc ha
        · exact absurd ((h.1 _ (List.getElem_mem _)).trans hc) ha

theorem sorted_count_ge {l : List ℝ} (h : l.Pairwise (· ≤ ·)) (v : ℝ) (k : ℕ) (hk : k < l.length) :
    l.length ≤ l.countP (fun a => decide (v ≤ a)) + k ↔ v ≤ l[k] := by
  induction l generalizing k with
  | nil => simp at hk
  | cons a l ih =>
    rw [List.pairwise_cons] at h
    rw [List.countP_cons, List.length_cons]
    by_cases ha : v ≤ a
    · have h0 : l.countP (fun a => decide (v ≤ a)) = l.length := by
        rw [List.countP_eq_length]
        intro b hb
        simpa using ha.trans (h.1 b hb)
      simp only [ha, decide_true, if_true, h0]
      refine ⟨fun _ => ?_, fun _ => by omega⟩
      rcases k with _ | k
      · exact ha
      · exact ha.trans (h.1 _ (List.getElem_mem _))
    · simp only [ha, decide_false, Bool.false_eq_true, if_false, add_zero]
      rcases k with _ | k
      · simp only [add_zero, List.getElem_cons_zero, ha, iff_false, not_le]
        exact Nat.lt_succ_of_le List.countP_le_length
      · simp only [List.getElem_cons_succ, ← ih h.2 k (by simpa using hk)]
        omega

theorem sortedList (l : List ℝ) : (l.mergeSort (· ≤ ·)).Pairwise (· ≤ ·) := by
  have := List.pairwise_mergeSort (le := fun a b : ℝ => decide (a ≤ b))
    (fun a b c h1 h2 => by simp only [decide_eq_true_eq] at *; exact h1.trans h2)
    (fun a b => by simpa using le_total a b) l
  simpa using this

/-- The lower and the upper middle element of the sorted list. -/
noncomputable def lowMid (l : List ℝ) : ℝ := (l.mergeSort (· ≤ ·)).getD ((l.length - 1) / 2) 0
noncomputable def highMid (l : List ℝ) : ℝ := (l.mergeSort (· ≤ ·)).getD (l.length / 2) 0

theorem medianOf_eq {l : List ℝ} (h : l ≠ []) : medianOf l = some ((lowMid l + highMid l) / 2) := by
  have : l.length ≠ 0 := by simpa using h
  simp [medianOf, this, lowMid, highMid]

theorem lowMid_le_iff {l : List ℝ} (h : l ≠ []) (v : ℝ) :
    lowMid l ≤ v ↔ l.length ≤ 2 * l.countP (fun a => decide (a ≤ v)) := by
  have hl : 0 < l.length := List.length_pos_iff.2 h
  have hk : (l.length - 1) / 2 < (l.mergeSort (· ≤ ·)).length := by simp; omega
  unfold lowMid
  rw [List.getD_eq_getElem _ _ hk, ← sorted_count_le (sortedList l) v _ hk,
    (List.mergeSort_perm l _).countP_eq]
  omega

theorem le_highMid_iff {l : List ℝ} (h : l ≠ []) (v : ℝ) :
    v ≤ highMid l ↔ l.length ≤ 2 * l.countP (fun a => decide (v ≤ a)) := by
  have hl : 0 < l.length := List.length_pos_iff.2 h
  have hk : l.length / 2 < (l.mergeSort (· ≤ ·)).length := by simp; omega
  unfold highMid
  rw [List.getD_eq_getElem _ _ hk, ← sorted_count_ge (sortedList l) v _ hk,
    (List.mergeSort_perm l _).countP_eq, List.length_mergeSort]
  omega

theorem highMid_le_iff {l : List ℝ} (h : l ≠ []) (v : ℝ) :
    highMid l ≤ v ↔ l.length < 2 * l.countP (fun a => decide (a ≤ v)) := by
  have hl : 0 < l.length := List.length_pos_iff.2 h
  have hk : l.length / 2 < (l.mergeSort (· ≤ ·)).length := by simp; omega
  unfold highMid
  rw [List.getD_eq_getElem _ _ hk, ← sorted_count_le (sortedList l) v _ hk,
    (List.mergeSort_perm l _).countP_eq]
  omega

theorem lowMid_le_highMid {l : List ℝ} (h : l ≠ []) : lowMid l ≤ highMid l := by
  have := (highMid_le_iff h (highMid l)).1 le_rfl
  exact (lowMid_le_iff h _).2 this.le

end lists

section pairs
variable {n d : ℕ}

theorem sqDist_eq (a b : Vec d) : sqDist a b = ∑ i, (a i - b i) ^ 2 := by
  unfold sqDist; exact Finset.sum_congr rfl fun i _ => (sq _).symm

theorem sqDist_symm' (a b : Vec d) : sqDist a b = sqDist b a := by
  simp only [sqDist_eq]; exact Finset.sum_congr rfl fun i _ => by ring

theorem countP_flatMap_finRange {α : Type*} (f : Fin n → List α) (p : α → Bool) :
    ((List.finRange n).flatMap f).countP p = ∑ i, (f i).countP p := by
  rw [List.countP_flatMap, ← List.ofFn_eq_map, List.sum_ofFn]
  rfl

/-- Twice the number of listed distances with a property is the number of ordered pairs with it. -/
theorem two_mul_countP (x : Fin n → Vec d) (p : ℝ → Prop) [DecidablePred p] :
    2 * (pairDistances x).countP (fun a => decide (p a)) = pairCount x (fun a b => p (∑ i, (a i - b i) ^ 2)) := by
  classical
  have hcount : (pairDistances x).countP (fun a => decide (p a)) =
      (univ.filter fun q : Fin n × Fin n => q.1 < q.2 ∧ p (sqDist (x q.1) (x q.2))).card := by
    unfold pairDistances
    rw [countP_flatMap_finRange, Finset.card_filter, Fintype.sum_prod_type]
    refine Finset.sum_congr rfl fun i _ => ?_
    rw [List.countP_map, List.countP_filter, ← Finset.card_filter]
    rw [show (univ.filter fun j : Fin n => i < j ∧ p (sqDist (x i) (x j))) =
      ((List.finRange n).filter fun j => decide (i < j ∧ p (sqDist (x i) (x j)))).toFinset from ?_]
    · rw [List.toFinset_card_of_nodup ((List.nodup_finRange n).filter _), List.countP_eq_length_filter]
      congr 2
      funext j
      by_cases h1 : i < j <;> by_cases h2 : p (sqDist (x i) (x j)) <;> simp [h1, h2]
    · ext j; simp
  rw [hcount]
  unfold pairCount
  have hsplit : (univ.filter fun q : Fin n × Fin n => q.1 ≠ q.2 ∧ p (∑ i, (x q.1 i - x q.2 i) ^ 2)) =
      (univ.filter fun q : Fin n × Fin n => q.1 < q.2 ∧ p (sqDist (x q.1) (x q.2))) ∪
      (univ.filter fun q : Fin n × Fin n => q.2 < q.1 ∧ p (sqDist (x q.1) (x q.2))) := by
    ext q
    simp only [mem_filter, mem_univ, true_and, mem_union, sqDist_eq, ne_iff_lt_or_gt, gt_iff_lt]
    tauto
  have hdisj : Disjoint (univ.filter fun q : Fin n × Fin n => q.1 < q.2 ∧ p (sqDist (x q.1) (x q.2)))
      (univ.filter fun q : Fin n × Fin n => q.2 < q.1 ∧ p (sqDist (x q.1) (x q.2))) := by
    rw [Finset.disjoint_left]
    intro q h1 h2
    simp only [mem_filter, mem_univ, true_and] at h1 h2
    exact absurd h1.1 (not_lt.2 h2.1.le)
  have hswap : (univ.filter fun q : Fin n × Fin n => q.2 < q.1 ∧ p (sqDist (x q.1) (x q.2))).card =
      (univ.filter fun q : Fin n × Fin n => q.1 < q.2 ∧ p (sqDist (x q.1) (x q.2))).card := by
    refine Finset.card_bij (fun q _ => (q.2, q.1)) ?_ ?_ ?_
    · intro q hq
      simp only [mem_filter, mem_univ, true_and] at hq ⊢
      rw [sqDist_symm']; exact hq
    · intro a _ b _ h
      exact Prod.ext (congrArg Prod.snd h) (congrArg Prod.fst h)
    · intro b hb
      refine ⟨(b.2, b.1), ?_, rfl⟩
      simp only [mem_filter, mem_univ, true_and] at hb ⊢
      rw [sqDist_symm']; exact hb
  have : (univ.filter fun q : Fin n × Fin n => q.1 ≠ q.2 ∧ p (∑ i, (x q.1 i - x q.2 i) ^ 2)).card =
      2 * (univ.filter fun q : Fin n × Fin n => q.1 < q.2 ∧ p (sqDist (x q.1) (x q.2))).card := by
    rw [hsplit, Finset.card_union_of_disjoint hdisj, hswap]; ring
  rw [← this]
  congr!

theorem two_mul_length (x : Fin n → Vec d) : 2 * (pairDistances x).length = pairCount x (fun _ _ => True) := by
  have := two_mul_countP x (fun _ => True)
  simpa using this

theorem pairCount_true (x : Fin n → Vec d) : pairCount x (fun _ _ => True) = n * (n - 1) := by
  classical
  have h : (univ : Finset (Fin n)).offDiag.card = n * (n - 1) := by
    rw [Finset.offDiag_card]; simp [Nat.mul_sub]
  rw [← h]
  unfold pairCount
  congr 1
  ext q; simp

theorem pairDistances_ne_nil_iff (x : Fin n → Vec d) : pairDistances x ≠ [] ↔ 2 ≤ n := by
  rw [← List.length_pos_iff]
  have h := two_mul_length x
  rw [pairCount_true] at h
  constructor
  · intro h'
    by_contra hn
    interval_cases n <;> simp at h <;> simp [h] at h'
  · intro hn
    have : 0 < n * (n - 1) := Nat.mul_pos (by omega) (by omega)
    omega

theorem isMedian_iff (x : Fin n → Vec d) (hn : 2 ≤ n) (v : ℝ) :
    IsMedianDistance x v ↔ lowMid (pairDistances x) ≤ v ∧ v ≤ highMid (pairDistances x) := by
  have hne := (pairDistances_ne_nil_iff x).2 hn
  unfold IsMedianDistance
  rw [lowMid_le_iff hne, le_highMid_iff hne, ← two_mul_length, ← two_mul_countP x (fun a => a ≤ v),
    ← two_mul_countP x (fun a => v ≤ a)]
  refine and_congr ?_ ?_ <;> constructor <;> intro h <;> omega

end pairs

end Coreax
