import Verif.Model.Util
import Verif.Model.Mean

/-!
# C36: tree helpers, pairwise evaluation, threshold for small negative numbers; C45: formatting of times
-/

set_option linter.unusedSectionVars false

namespace Coreax

/-- C36: the leaves after repetition, one by one: the leaves in order, then the last leaf again, up to the requested length
(or the number of leaves if that is larger); nothing for a tree without leaves. -/
theorem C36_tree_leaves_repeat {α : Type*} (t : PyTree α) (length : ℕ) (i : ℕ) :
    (treeLeavesRepeat t length)[i]? =
      if i < max t.leaves.length length then t.leaves[min i (t.leaves.length - 1)]? else none := by
  simp only [treeLeavesRepeat]
  generalize t.leaves = l
  rcases List.eq_nil_or_concat l with rfl | ⟨l, a, rfl⟩
  · simp
  · simp only [List.concat_eq_append, List.length_append, List.length_cons, List.length_nil, zero_add, Nat.add_sub_cancel]
    have hdrop : (l ++ [a]).drop l.length = [a] := by simp
    rw [hdrop]
    have hrep : ∀ r : ℕ, (List.replicate r [a]).flatten = List.replicate r a := by
      intro r; induction r with
      | zero => rfl
      | succ r ih => simp [List.replicate_succ, ih]
    rw [hrep]
    rcases lt_or_ge i l.length with h | h
    · rw [if_pos (by omega), min_eq_left h.le, List.getElem?_append_left (by simp; omega)]
    · rw [min_eq_right h]
      rcases eq_or_lt_of_le h with h | h
      · subst h; simp
      · rw [List.getElem?_append_right (by simp; omega), List.getElem?_replicate]
        simp only [List.length_append, List.length_cons, List.length_nil, zero_add, List.getElem?_append_right le_rfl]
        split_ifs <;> first | omega | simp

/-- C36: the number of leaves after repetition, for a tree with leaves. -/
theorem C36_tree_leaves_repeat_length {α : Type*} (t : PyTree α) (ht : t.leaves ≠ []) (length : ℕ) :
    (treeLeavesRepeat t length).length = max t.leaves.length length := by
  have hl : 0 < t.leaves.length := List.length_pos_iff.2 ht
  refine Nat.le_antisymm ?_ ?_
  · by_contra h
    push Not at h
    have := C36_tree_leaves_repeat t length (max t.leaves.length length)
    rw [if_neg (lt_irrefl _), List.getElem?_eq_none_iff] at this
    omega
  · by_contra h
    push Not at h
    have := C36_tree_leaves_repeat t length (treeLeavesRepeat t length).length
    rw [if_pos h, List.getElem?_eq_none le_rfl, eq_comm, List.getElem?_eq_none_iff] at this
    omega

/-- Two block sizes in a tuple, repeated to length four. -/
example : treeLeavesRepeat (.node [.leaf (some 3), .node [.leaf none]]) 4 = [some 3, none, none, none] := by decide

/-- A tree without leaves stays without: the caller that unpacks two leaves then fails. -/
example : treeLeavesRepeat (.node [] : PyTree (Option ℤ)) 2 = [] := by decide

/-- C36: padding fails exactly for a negative width; otherwise the rows of each leaf are kept in place and followed by exactly as many zero rows. -/
theorem C36_tree_zero_pad {α : Type*} [Zero α] (leaves : List (List α)) (pad : ℤ) :
    (pad < 0 → treeZeroPad leaves pad = .error .valueError) ∧
    (0 ≤ pad → ∃ out, treeZeroPad leaves pad = .ok out ∧ out.length = leaves.length ∧
      ∀ (i : ℕ) (l : List α), leaves[i]? = some l → ∃ l', out[i]? = some l' ∧ ∀ j : ℕ,
        l'[j]? = if j < l.length then l[j]? else if (j : ℤ) < l.length + pad then some 0 else none) := by
  refine ⟨fun h => by simp [treeZeroPad, h], fun h =>
    ⟨leaves.map (fun l => l ++ List.replicate pad.toNat 0), by simp only [treeZeroPad, if_neg (not_lt.2 h)], by simp, ?_⟩⟩
  intro i l hl
  refine ⟨l ++ List.replicate pad.toNat 0, by simp [hl], fun j => ?_⟩
  rcases lt_or_ge j l.length with hj | hj
  · rw [if_pos hj, List.getElem?_append_left hj]
  · rw [if_neg (not_lt.2 hj), List.getElem?_append_right hj, List.getElem?_replicate]
    split_ifs <;> first | rfl | omega

example : treeZeroPad [[1, 2], [3]] 2 = .ok [[1, 2, 0, 0], [3, 0, 0]] := by decide
example : treeZeroPad [[1, 2], [3]] (-1) = .error .valueError := by decide

/-- C36: padding of one array, entry by entry. -/
theorem C36_zero_pad {n : ℕ} {α : Type*} [Zero α] (a : Fin n → α) (pad : ℕ) (j : Fin (n + pad)) :
    zeroPad a pad j = if h : (j : ℕ) < n then a ⟨j, h⟩ else 0 := by
  unfold zeroPad
  refine Fin.addCases (fun i => ?_) (fun i => ?_) j
  · rw [Fin.append_left]; simp
  · rw [Fin.append_right]; simp

/-- C36: pairwise evaluation of two arrays of points has at row `i` and column `j` the function of row `i` of the first and row `j` of the second;
a vector counts as one point, and a number as one point with one coordinate. -/
theorem C36_pairwise {K α : Type*} (fn : ∀ {d e : ℕ}, (Fin d → K) → (Fin e → K) → α) :
    (∀ {n m d e : ℕ} (x : Fin n → Fin d → K) (y : Fin m → Fin e → K),
      pairwise @fn (.matrix n d x) (.matrix m e y) = ⟨n, m, fun i j => fn (x i) (y j)⟩) ∧
    (∀ {m d e : ℕ} (x : Fin d → K) (y : Fin m → Fin e → K),
      pairwise @fn (.vector d x) (.matrix m e y) = ⟨1, m, fun _ j => fn x (y j)⟩) ∧
    (∀ {n d e : ℕ} (x : Fin n → Fin d → K) (y : Fin e → K),
      pairwise @fn (.matrix n d x) (.vector e y) = ⟨n, 1, fun i _ => fn (x i) y⟩) ∧
    (∀ {d e : ℕ} (x : Fin d → K) (y : Fin e → K),
      pairwise @fn (.vector d x) (.vector e y) = ⟨1, 1, fun _ _ => fn x y⟩) ∧
    (∀ a b : K, pairwise @fn (.scalar a) (.scalar b) = ⟨1, 1, fun _ _ => fn (fun _ : Fin 1 => a) (fun _ : Fin 1 => b)⟩) :=
  ⟨fun _ _ => rfl, fun _ _ => rfl, fun _ _ => rfl, fun _ _ => rfl, fun _ _ => rfl⟩

/-- C36, two conventions: a vector of `d` numbers is one point for `pairwise` (hence for `kernel.compute`) and `d` points for datasets
(hence for `gramian_row_mean` and `median_heuristic`); the two agree exactly for one number. -/
theorem C36_vector_conventions {K : Type*} (d : ℕ) (v : Fin d → K) :
    (PtArg.vector d v).atleast2d = (PtArg.vector d v).atleast2dConsistent ↔ d = 1 := by
  constructor
  · intro h
    exact (congrArg Sigma.fst h).symm
  · rintro rfl
    simp only [PtArg.atleast2d, PtArg.atleast2dConsistent]
    congr
    funext i j
    exact congrArg v (Subsingleton.elim _ _)

section threshold
variable {K : Type*} [Field K] [LinearOrder K] [IsStrictOrderedRing K]

/-- C36: the threshold on finite numbers: numbers strictly between minus the threshold and zero become zero, all others are kept; the sign of the threshold is ignored. -/
theorem C36_threshold_fin (x t : K) :
    negThreshold (Ext.fin x) t = Ext.fin (if -|t| < x ∧ x < 0 then 0 else x) := by
  unfold negThreshold Ext.lt
  by_cases h1 : -|t| < x <;> by_cases h2 : x < 0 <;> simp [h1, h2]

/-- C36: NaN and the infinities are kept. -/
theorem C36_threshold_special (t : K) :
    negThreshold Ext.nan t = (Ext.nan : Ext K) ∧ negThreshold Ext.pinf t = (Ext.pinf : Ext K) ∧
    negThreshold Ext.ninf t = (Ext.ninf : Ext K) := by
  refine ⟨?_, ?_, ?_⟩ <;> simp [negThreshold, Ext.lt]

/-- C36: on finite numbers the threshold moves a number by less than the threshold (or not at all), keeps the order, and doing it twice changes nothing;
the result is negative exactly for numbers at or below minus the threshold, zero excepted. -/
theorem C36_threshold_laws (x y t : K) : ∃ x' y' : K,
    negThreshold (Ext.fin x) t = Ext.fin x' ∧ negThreshold (Ext.fin y) t = Ext.fin y' ∧
    negThreshold (negThreshold (Ext.fin x) t) t = Ext.fin x' ∧
    |x' - x| ≤ |t| ∧ (x ≤ y → x' ≤ y') ∧ (x' < 0 ↔ x < 0 ∧ x ≤ -|t|) := by
  refine ⟨_, _, C36_threshold_fin x t, C36_threshold_fin y t, ?_, ?_, ?_, ?_⟩
  · rw [C36_threshold_fin, C36_threshold_fin]
    congr 1
    split_ifs with h h' <;> simp_all
  · split_ifs with h
    · rw [zero_sub, abs_neg, abs_of_neg h.2]; linarith
    · simp
  · intro hxy
    split_ifs with h h' h'
    · exact le_rfl
    · by_contra hc
      push Not at hc
      exact h' ⟨lt_of_lt_of_le h.1 hxy, hc⟩
    · by_contra hc
      push Not at hc
      exact absurd (hxy.trans h'.2.le) (not_le.2 hc)
    · exact hxy
  · split_ifs with h
    · simp only [lt_irrefl, false_iff, not_and, not_le]
      exact fun _ => h.1
    · constructor
      · intro hx
        exact ⟨hx, by by_contra hc; push Not at hc; exact h ⟨hc, hx⟩⟩
      · exact fun h => h.1

end threshold

example : negThreshold (Ext.fin (-1 / 10 : ℚ)) (1 / 5) = Ext.fin 0 ∧ negThreshold (Ext.fin (-1 / 5 : ℚ)) (1 / 5) = Ext.fin (-1 / 5) := by
  rw [C36_threshold_fin, C36_threshold_fin]; norm_num

/-! ### Formatting of times -/

/-- Seconds in a unit. -/
noncomputable def Spec.seconds : TimeUnit → ℝ
  | .mins => 60
  | .s => 1
  | .ms => 1 / 10 ^ 3
  | .us => 1 / 10 ^ 6
  | .ns => 1 / 10 ^ 9
  | .ps => 1 / 10 ^ 12

/-- Least and greatest (exclusive) number shown with a unit; no bound above for minutes, nor below for picoseconds. -/
def Spec.InRange (v : ℝ) : TimeUnit → Prop
  | .mins => 5 / 3 ≤ |v|
  | .s => 1 ≤ |v| ∧ |v| < 100
  | .ms => 1 ≤ |v| ∧ |v| < 1000
  | .us => 1 ≤ |v| ∧ |v| < 1000
  | .ns => 1 ≤ |v| ∧ |v| < 1000
  | .ps => 0 < |v| ∧ |v| < 1000

/-- C45: zero is shown as zero seconds; every other time is shown as a number of units that denotes exactly the time before rounding, in the range for the unit. -/
theorem C45_format_time (num : ℝ) :
    (formatTime num = none ↔ num = 0) ∧
    ∀ v u, formatTime num = some (v, u) → v * Spec.seconds u = num ∧ Spec.InRange v u := by
  refine ⟨by unfold formatTime; split_ifs <;> simp_all, ?_⟩
  intro v u h
  unfold formatTime at h
  by_cases h0 : num = 0
  · simp [h0] at h
  rw [if_neg h0] at h
  have hpos : 0 < |num| := abs_pos.2 h0
  have hb : (1 : ℝ) < 10 := by norm_num
  have hlt : ∀ z : ℤ, Real.logb 10 |num| < z ↔ |num| < 10 ^ z := fun z => by
    rw [Real.logb_lt_iff_lt_rpow hb hpos, Real.rpow_intCast]
  have l9 := hlt (-9)
  have l6 := hlt (-6)
  have l3 := hlt (-3)
  have l0 := hlt 0
  have l2 := hlt 2
  norm_num [-Real.logb_abs] at l9 l6 l3 l0 l2
  have hl2 : 2 ≤ Real.logb 10 |num| ↔ 100 ≤ |num| := by rw [← not_lt, l2, not_lt]
  simp only [l9, l6, l3, l0, hl2, Option.some.injEq] at h
  split_ifs at h with c1 c2 c3 c4 c5 <;> cases h <;> push Not at * <;>
    refine ⟨by simp only [Spec.seconds]; ring, ?_⟩ <;> simp only [Spec.InRange, abs_mul, abs_div] <;> norm_num <;>
    first | (constructor <;> first | linarith | assumption) | linarith

/-- C45: with any rounding to within half a hundredth, what is shown is within half a hundredth of a unit of the time. -/
theorem C45_format_time_rounded (round : ℝ → ℝ) (hr : ∀ v, |round v - v| ≤ 1 / 200) (num v : ℝ) (u : TimeUnit)
    (h : formatTime num = some (v, u)) : |round v * Spec.seconds u - num| ≤ Spec.seconds u / 200 := by
  obtain ⟨h1, -⟩ := (C45_format_time num).2 v u h
  have hs : 0 < Spec.seconds u := by cases u <;> norm_num [Spec.seconds]
  rw [← h1, ← sub_mul, abs_mul, abs_of_pos hs]
  nlinarith [hr v]

/-- The example of the docstring: 0.4531 seconds are 453.1 milliseconds. -/
example : formatTime 0.4531 = some (453.1, .ms) := by
  rcases h : formatTime 0.4531 with _ | ⟨v, u⟩
  · exact absurd ((C45_format_time _).1.1 h) (by norm_num)
  · obtain ⟨h1, h2⟩ := (C45_format_time _).2 v u h
    cases u <;> simp only [Spec.seconds, Spec.InRange] at h1 h2
    · have : v = 0.4531 / 60 := by linarith
      subst this; norm_num [abs_of_pos] at h2
    · have : v = 0.4531 * 10 ^ 12 := by linarith
      subst this; norm_num [abs_of_pos] at h2
    · have : v = 0.4531 * 10 ^ 9 := by linarith
      subst this; norm_num [abs_of_pos] at h2
    · have : v = 0.4531 * 10 ^ 6 := by linarith
      subst this; norm_num [abs_of_pos] at h2
    · have : v = 453.1 := by linarith
      subst this; rfl
    · have : v = 0.4531 := by linarith
      subst this; norm_num [abs_of_pos] at h2

end Coreax
