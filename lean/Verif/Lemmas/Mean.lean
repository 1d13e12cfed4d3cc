import Verif.Model.Mean
import Mathlib.Algebra.BigOperators.Intervals
import Mathlib.Algebra.BigOperators.Group.List.Basic

set_option linter.unusedSectionVars false

namespace Coreax

variable {X K : Type*} [Zero X] [Field K] [LinearOrder K]

theorem scan_eq {σ α β : Type*} (f : σ → α → σ × β) (s : σ) (as : List α) :
    (scan f s as).1 = as.foldl (fun s a => (f s a).1) s := by
  induction as generalizing s with
  | nil => rfl
  | cons a as ih => simp [scan, ih]

theorem scan_snd_of_indep {σ α β : Type*} (f : σ → α → σ × β) (g : α → β) (h : ∀ s a, (f s a).2 = g a)
    (s : σ) (as : List α) : (scan f s as).2 = as.map g := by
  induction as generalizing s with
  | nil => rfl
  | cons a as ih => simp [scan, ih, h]

theorem scan_fst_add {α β : Type*} {M : Type*} [AddCommMonoid M] (f : M → α → M × β) (g : α → M)
    (h : ∀ s a, (f s a).1 = s + g a) (s : M) (as : List α) : (scan f s as).1 = s + (as.map g).sum := by
  induction as generalizing s with
  | nil => simp [scan]
  | cons a as ih => simp [scan, ih, h, add_assoc]

/-- Column sum of one pair of blocks. -/
def colOf (k : X → X → K) {Bx By : ℕ} (xb : Fin Bx → X × K) (yb : Fin By → X × K) (r : Fin Bx) : K :=
  ∑ c, k (xb r).1 (yb c).1 * (yb c).2

theorem sliceSum_fst (k : X → X → K) {Bx By : ℕ} (xb : Fin Bx → X × K) (acc : K) (yb : Fin By → X × K) :
    (sliceSum k xb acc yb).1 = acc + ∑ r, (xb r).2 * colOf k xb yb r := rfl

theorem sliceSum_snd (k : X → X → K) {Bx By : ℕ} (xb : Fin Bx → X × K) (acc : K) (yb : Fin By → X × K) :
    (sliceSum k xb acc yb).2 = colOf k xb yb := rfl

theorem blockSum_snd (k : X → X → K) {Bx By : ℕ} (ys : List (Fin By → X × K)) (acc : K)
    (xb : Fin Bx → X × K) (i : Fin Bx) :
    (blockSum k ys acc xb).2 i = (ys.map (fun yb => colOf k xb yb i)).sum := by
  simp only [blockSum]
  rw [scan_snd_of_indep _ (fun yb => colOf k xb yb) (fun s a => sliceSum_snd k xb s a)]
  simp [List.map_map, Function.comp_def]

theorem blockSum_fst (k : X → X → K) {Bx By : ℕ} (ys : List (Fin By → X × K)) (acc : K)
    (xb : Fin Bx → X × K) :
    (blockSum k ys acc xb).1 = acc + ∑ r, (xb r).2 * (ys.map (fun yb => colOf k xb yb r)).sum := by
  simp only [blockSum]
  rw [scan_fst_add _ (fun yb => ∑ r, (xb r).2 * colOf k xb yb r) (fun s a => sliceSum_fst k xb s a)]
  congr 1
  induction ys with
  | nil => simp
  | cons y ys ih => simp [ih, mul_add, Finset.sum_add_distrib]

theorem sum_blocks {M : Type*} [AddCommMonoid M] (f : ℕ → M) (nb B : ℕ) :
    ((List.range nb).map (fun b => ∑ r : Fin B, f (b * B + r))).sum = ∑ j ∈ Finset.range (nb * B), f j := by
  induction nb with
  | zero => simp
  | succ nb ih =>
    rw [List.range_succ, List.map_append, List.sum_append, ih, Nat.succ_mul, Finset.sum_range_add]
    simp [Finset.sum_range]

theorem flatten_blocks {α : Type*} (f : ℕ → α) (nb B : ℕ) :
    ((List.range nb).map (fun b => List.ofFn (fun r : Fin B => f (b * B + r)))).flatten
      = (List.range (nb * B)).map f := by
  induction nb with
  | zero => simp
  | succ nb ih =>
    rw [List.range_succ, List.map_append, List.flatten_append, ih, Nat.succ_mul, List.range_add,
      List.map_append]
    simp [List.ofFn_eq_map, List.map_map, Function.comp_def, ← List.map_coe_finRange_eq_range]

theorem le_numBlocks_mul (n B : ℕ) (hB : 0 < B) : n ≤ numBlocks n B * B := by
  unfold numBlocks
  have h := Nat.div_add_mod (n + B - 1) B
  have h2 := Nat.mod_lt (n + B - 1) hB
  rw [Nat.mul_comm] at h
  omega

theorem sum_range_padded {n N : ℕ} (h : n ≤ N) (d : Data n X K) (g : X → K) :
    ∑ j ∈ Finset.range N, g (paddedRow d j).1 * (paddedRow d j).2 = ∑ i, g (d.data i) * d.weights i := by
  rw [← Finset.sum_subset (Finset.range_subset_range.2 h)]
  · rw [Finset.sum_range]
    exact Finset.sum_congr rfl (fun i _ => by simp [paddedRow])
  · intro j _ hj
    have : ¬ j < n := by simpa using hj
    simp [paddedRow, this]

theorem effBlock_eq_zero {n : ℕ} {b : Option ℤ} : effBlock n b = 0 ↔ n = 0 := by
  cases b with
  | none => simp [effBlock]
  | some b =>
    simp only [effBlock]
    have : 0 < (max b 1).toNat := by have := le_max_right b 1; omega
    omega

theorem effBlock_le {n : ℕ} {b : Option ℤ} : effBlock n b ≤ n := by
  cases b with
  | none => simp [effBlock]
  | some b => simp [effBlock]

theorem blockDataConvert_of_pos (big : K) {n : ℕ} (hn : 0 < n) (d : Data n X K) (b : Option ℤ) :
    blockDataConvert big d b = .ok ⟨effBlock n b,
      (List.range (numBlocks n (effBlock n b))).map
        (fun blk r => paddedRow (d.normalizePZ big) (blk * effBlock n b + r))⟩ := by
  have : effBlock n b ≠ 0 := fun h => hn.ne' (effBlock_eq_zero.1 h)
  simp [blockDataConvert, this]

theorem blockDataConvert_zero (big : K) (d : Data 0 X K) (b : Option ℤ) :
    blockDataConvert big d b = .error .zeroDivisionError := by
  have : effBlock 0 b = 0 := effBlock_eq_zero.2 rfl
  simp [blockDataConvert, this]

/-- The double scan computes the full weighted sums, whatever the block sizes. -/
theorem columnMean_eq (big : K) (k : X → X → K) {n m : ℕ} (hn : 0 < n) (hm : 0 < m) (x : Data n X K)
    (y : Data m X K) (bx bY : Option ℤ) :
    columnMean big k x y bx bY = .ok
      (∑ i, normWeightsPZ big x.weights i *
          ∑ j, k (x.data i) (y.data j) * normWeightsPZ big y.weights j,
        List.ofFn (fun i => ∑ j, k (x.data i) (y.data j) * normWeightsPZ big y.weights j)) := by
  set y' := y.normalizePZ big with hy'
  set x' := x.normalizePZ big with hx'
  set Bx := effBlock n bx with hBx
  set By := effBlock m bY with hBy
  have hBx0 : 0 < Bx := Nat.pos_of_ne_zero (fun h => hn.ne' (effBlock_eq_zero.1 h))
  have hBy0 : 0 < By := Nat.pos_of_ne_zero (fun h => hm.ne' (effBlock_eq_zero.1 h))
  -- inner sums
  let col : X → K := fun z => ∑ j, k z (y.data j) * normWeightsPZ big y.weights j
  have inner : ∀ (xb : Fin Bx → X × K) (r : Fin Bx),
      (((List.range (numBlocks m By)).map
        (fun blk (r : Fin By) => paddedRow y' (blk * By + r))).map (fun yb => colOf k xb yb r)).sum
        = col (xb r).1 := by
    intro xb r
    rw [List.map_map]
    have := sum_blocks (fun j => k (xb r).1 (paddedRow y' j).1 * (paddedRow y' j).2) (numBlocks m By) By
    rw [show ((fun yb => colOf k xb yb r) ∘ fun blk (r : Fin By) => paddedRow y' (blk * By + r))
      = fun blk => ∑ c : Fin By, k (xb r).1 (paddedRow y' (blk * By + c)).1 *
        (paddedRow y' (blk * By + c)).2 from rfl, this,
      sum_range_padded (le_numBlocks_mul m By hBy0) y' (fun z => k (xb r).1 z)]
    rfl
  unfold columnMean
  rw [blockDataConvert_of_pos big hn, blockDataConvert_of_pos big hm]
  simp only [← hBx, ← hBy, ← hx', ← hy']
  have hfst := scan_fst_add
    (blockSum k ((List.range (numBlocks m By)).map (fun blk (r : Fin By) => paddedRow y' (blk * By + r))))
    (fun xb : Fin Bx → X × K => ∑ r, (xb r).2 * col (xb r).1)
    (fun s a => by rw [blockSum_fst]; simp only [inner])
    0 ((List.range (numBlocks n Bx)).map (fun blk (r : Fin Bx) => paddedRow x' (blk * Bx + r)))
  have hsnd := scan_snd_of_indep
    (blockSum k ((List.range (numBlocks m By)).map (fun blk (r : Fin By) => paddedRow y' (blk * By + r))))
    (fun (xb : Fin Bx → X × K) r => col (xb r).1)
    (fun s a => by funext r; rw [blockSum_snd]; exact inner a r)
    0 ((List.range (numBlocks n Bx)).map (fun blk (r : Fin Bx) => paddedRow x' (blk * Bx + r)))
  congr 1
  refine Prod.ext ?_ ?_
  · refine hfst.trans ?_
    rw [List.map_map, zero_add]
    have := sum_blocks (fun j => (paddedRow x' j).2 * col (paddedRow x' j).1) (numBlocks n Bx) Bx
    rw [show ((fun xb : Fin Bx → X × K => ∑ r, (xb r).2 * col (xb r).1) ∘
        fun blk (r : Fin Bx) => paddedRow x' (blk * Bx + r))
      = fun blk => ∑ r : Fin Bx, (paddedRow x' (blk * Bx + r)).2 * col (paddedRow x' (blk * Bx + r)).1
      from rfl, this]
    rw [Finset.sum_congr rfl (fun j _ => mul_comm _ _),
      sum_range_padded (le_numBlocks_mul n Bx hBx0) x' col]
    exact Finset.sum_congr rfl (fun j _ => mul_comm _ _)
  · refine (congrArg (fun l : List (Fin Bx → K) => (l.map List.ofFn).flatten.take n) hsnd).trans ?_
    simp only [List.map_map]
    rw [show (List.ofFn ∘ (fun (xb : Fin Bx → X × K) r => col (xb r).1) ∘
        fun blk (r : Fin Bx) => paddedRow x' (blk * Bx + r))
      = fun blk => List.ofFn (fun r : Fin Bx => col (paddedRow x' (blk * Bx + r)).1) from rfl,
      flatten_blocks (fun j => col (paddedRow x' j).1), ← List.map_take, List.take_range,
      Nat.min_eq_left (le_numBlocks_mul n Bx hBx0), List.ofFn_eq_map, ← List.map_coe_finRange_eq_range,
      List.map_map]
    refine List.map_congr_left (fun i _ => ?_)
    simp [paddedRow, x', Data.normalizePZ, col]

theorem columnMean_error (big : K) (k : X → X → K) {n m : ℕ} (h : n = 0 ∨ m = 0) (x : Data n X K)
    (y : Data m X K) (bx bY : Option ℤ) : columnMean big k x y bx bY = .error .zeroDivisionError := by
  unfold columnMean
  rcases Nat.eq_zero_or_pos n with rfl | hn
  · rw [blockDataConvert_zero]
  · rw [blockDataConvert_of_pos big hn]
    have : m = 0 := by omega
    subst this
    simp only [blockDataConvert_zero]

end Coreax
