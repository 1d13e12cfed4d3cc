import Verif.Model.MeanTrace
import Verif.Props.Mean
import Mathlib.Data.List.Perm.Basic

/-!
# C89: what the blocked kernel mean evaluates and keeps
-/

set_option linter.unusedSectionVars false

namespace Coreax

namespace Spec

/-- The length of the blocks of `n ≥ 1` rows: the number asked for, but at least one and at most `n`; all rows if none is asked for. -/
def blockLen (n : ℕ) : Option ℤ → ℕ
  | none => n
  | some b => if b ≤ 1 then 1 else if (n : ℤ) ≤ b then n else b.toNat

/-- The least number of blocks of length `B` that hold `n` rows. -/
def IsBlockCount (n B N : ℕ) : Prop := n ≤ N * B ∧ ∀ N', n ≤ N' * B → N ≤ N'

/-- Row `i` of data followed by zero rows. -/
def rowOrZero {X : Type*} [Zero X] {n : ℕ} (x : Fin n → X) (i : ℕ) : X := if h : i < n then x ⟨i, h⟩ else 0

end Spec

/-- The pairs of points at which a kernel matrix evaluates the kernel. -/
def ArrayEvent.pairs {X : Type*} : ArrayEvent X → List (X × X)
  | .matrix r c => r ×ˢ c
  | .stack _ _ => []

/-- The number of entries of an array. -/
def ArrayEvent.entries {X : Type*} : ArrayEvent X → ℕ
  | .matrix r c => r.length * c.length
  | .stack a b => a * b

/-- The shapes of the kernel matrices. -/
def ArrayEvent.matrixShape {X : Type*} : ArrayEvent X → Option (ℕ × ℕ)
  | .matrix r c => some (r.length, c.length)
  | .stack _ _ => none

/-- The shapes of the collected outputs. -/
def ArrayEvent.stackShape {X : Type*} : ArrayEvent X → Option (ℕ × ℕ)
  | .matrix _ _ => none
  | .stack a b => some (a, b)

namespace MeanTrace

variable {X K : Type*} [Zero X] [Field K] [LinearOrder K]

theorem effBlock_spec {n : ℕ} (hn : 0 < n) (b : Option ℤ) : effBlock n b = Spec.blockLen n b := by
  cases b with
  | none => rfl
  | some b =>
    simp only [effBlock, Spec.blockLen]
    split_ifs with h1 h2
    · rw [max_eq_right h1]
      show min 1 n = 1
      omega
    · rw [max_eq_left (by omega)]
      omega
    · rw [max_eq_left (by omega)]
      omega

theorem numBlocks_spec {n B : ℕ} (hB : 0 < B) : Spec.IsBlockCount n B (numBlocks n B) := by
  refine ⟨le_numBlocks_mul n B hB, fun N' h => ?_⟩
  unfold numBlocks
  rw [Nat.div_le_iff_le_mul_add_pred hB]
  rw [Nat.mul_comm] at h
  omega

theorem numBlocks_mul_lt {n B : ℕ} (hB : 0 < B) : numBlocks n B * B < n + B := by
  unfold numBlocks
  have := Nat.div_mul_le_self (n + B - 1) B
  omega

/-- The record of one row of blocks. -/
def rowLog {Bx By : ℕ} (blocksY : List (Fin By → X × K)) (xb : Fin Bx → X × K) : List (ArrayEvent X) :=
  blocksY.map (fun yb => .matrix (List.ofFn fun r => (xb r).1) (List.ofFn fun c => (yb c).1)) ++ [.stack blocksY.length Bx]

theorem inner_eq (k : X → X → K) {Bx By : ℕ} (xb : Fin Bx → X × K) (blocksY : List (Fin By → X × K)) (acc : K) (log : List (ArrayEvent X)) :
    scan (sliceSumTrace k xb) (acc, log) blocksY
      = (((scan (sliceSum k xb) acc blocksY).1,
          log ++ blocksY.map (fun yb => .matrix (List.ofFn fun r => (xb r).1) (List.ofFn fun c => (yb c).1))),
        (scan (sliceSum k xb) acc blocksY).2) := by
  induction blocksY generalizing acc log with
  | nil => simp [scan]
  | cons y ys ih =>
    simp only [scan, sliceSumTrace, blockCompute, ih, sliceSum, List.map_cons, List.append_assoc, List.singleton_append]

theorem scan_length {σ α β : Type*} (f : σ → α → σ × β) (s : σ) (l : List α) : (scan f s l).2.length = l.length := by
  induction l generalizing s with
  | nil => rfl
  | cons a l ih => simp [scan, ih]

theorem block_eq (k : X → X → K) {Bx By : ℕ} (blocksY : List (Fin By → X × K)) (xb : Fin Bx → X × K) (acc : K) (log : List (ArrayEvent X)) :
    blockSumTrace k blocksY (acc, log) xb
      = (((blockSum k blocksY acc xb).1, log ++ rowLog blocksY xb), (blockSum k blocksY acc xb).2) := by
  simp only [blockSumTrace, inner_eq, blockSum, scan_length, rowLog, List.append_assoc]

theorem outer_eq (k : X → X → K) {Bx By : ℕ} (blocksY : List (Fin By → X × K)) (blocksX : List (Fin Bx → X × K)) (acc : K) (log : List (ArrayEvent X)) :
    scan (blockSumTrace k blocksY) (acc, log) blocksX
      = (((scan (blockSum k blocksY) acc blocksX).1, log ++ blocksX.flatMap (rowLog blocksY)), (scan (blockSum k blocksY) acc blocksX).2) := by
  induction blocksX generalizing acc log with
  | nil => simp [scan]
  | cons x xs ih =>
    simp only [scan, block_eq, ih, List.flatMap_cons, List.append_assoc]

/-- The record of the double scan. -/
def fullLog {Bx By : ℕ} (blocksX : List (Fin Bx → X × K)) (blocksY : List (Fin By → X × K)) : List (ArrayEvent X) :=
  blocksX.flatMap (rowLog blocksY) ++ [.stack blocksX.length Bx]

theorem column_ok (big : K) (k : X → X → K) {n m : ℕ} (x : Data n X K) (y : Data m X K) (bx bY : Option ℤ) {Bx By : ℕ}
    {blocksX : List (Fin Bx → X × K)} {blocksY : List (Fin By → X × K)} (hx : blockDataConvert big x bx = .ok ⟨Bx, blocksX⟩)
    (hy : blockDataConvert big y bY = .ok ⟨By, blocksY⟩) :
    ∃ r, columnMean big k x y bx bY = .ok r ∧ columnMeanTrace big k x y bx bY = .ok (r, fullLog blocksX blocksY) := by
  unfold columnMean columnMeanTrace
  simp only [hx, hy]
  refine ⟨_, rfl, ?_⟩
  rw [outer_eq, scan_length]
  rfl

theorem column_error (big : K) (k : X → X → K) {n m : ℕ} (h : n = 0 ∨ m = 0) (x : Data n X K) (y : Data m X K) (bx bY : Option ℤ) :
    columnMeanTrace big k x y bx bY = .error .zeroDivisionError := by
  unfold columnMeanTrace
  rcases Nat.eq_zero_or_pos n with rfl | hn
  · rw [blockDataConvert_zero]
  · rw [blockDataConvert_of_pos big hn]
    have hm : m = 0 := by omega
    subst hm
    simp only [blockDataConvert_zero]

/-- The blocks of data. -/
def blocks {n : ℕ} (d : Data n X K) (B : ℕ) : List (Fin B → X × K) :=
  (List.range (numBlocks n B)).map fun blk r => paddedRow d (blk * B + r)

theorem column_log (big : K) (k : X → X → K) {n m : ℕ} (hn : 0 < n) (hm : 0 < m) (x : Data n X K) (y : Data m X K) (bx bY : Option ℤ) :
    ∃ r, columnMean big k x y bx bY = .ok r ∧
      columnMeanTrace big k x y bx bY
        = .ok (r, fullLog (blocks (x.normalizePZ big) (effBlock n bx)) (blocks (y.normalizePZ big) (effBlock m bY))) :=
  column_ok big k x y bx bY (blockDataConvert_of_pos big hn x bx) (blockDataConvert_of_pos big hm y bY)

theorem column_value (big : K) (k : X → X → K) {n m : ℕ} (x : Data n X K) (y : Data m X K) (bx bY : Option ℤ) :
    (columnMeanTrace big k x y bx bY).map Prod.fst = columnMean big k x y bx bY := by
  rcases Nat.eq_zero_or_pos n with h | hn
  · rw [column_error big k (Or.inl h), columnMean_error big k (Or.inl h)]
    rfl
  rcases Nat.eq_zero_or_pos m with h | hm
  · rw [column_error big k (Or.inr h), columnMean_error big k (Or.inr h)]
    rfl
  obtain ⟨r, h1, h2⟩ := column_log big k hn hm x y bx bY
  rw [h1, h2]
  rfl

theorem filterMap_matrix {Bx By : ℕ} (blocksX : List (Fin Bx → X × K)) (blocksY : List (Fin By → X × K)) :
    (fullLog blocksX blocksY).filterMap ArrayEvent.matrixShape = List.replicate (blocksX.length * blocksY.length) (Bx, By) := by
  have hrow : ∀ xb : Fin Bx → X × K, (rowLog blocksY xb).filterMap ArrayEvent.matrixShape = List.replicate blocksY.length (Bx, By) := by
    intro xb
    simp [rowLog, List.filterMap_append, List.filterMap_map, Function.comp_def, ArrayEvent.matrixShape, List.eq_replicate_iff]
  rw [fullLog, List.filterMap_append, List.filterMap_flatMap]
  simp only [hrow]
  have : [ArrayEvent.stack (X := X) blocksX.length Bx].filterMap ArrayEvent.matrixShape = [] := rfl
  rw [this, List.append_nil]
  induction blocksX with
  | nil => simp
  | cons x xs ih =>
    rw [List.flatMap_cons, ih, List.replicate_append_replicate, List.length_cons]
    · congr 1
      ring
    · rfl

theorem filterMap_stack {Bx By : ℕ} (blocksX : List (Fin Bx → X × K)) (blocksY : List (Fin By → X × K)) :
    (fullLog blocksX blocksY).filterMap ArrayEvent.stackShape
      = List.replicate blocksX.length (blocksY.length, Bx) ++ [(blocksX.length, Bx)] := by
  have hrow : ∀ xb : Fin Bx → X × K, (rowLog blocksY xb).filterMap ArrayEvent.stackShape = [(blocksY.length, Bx)] := by
    intro xb
    simp [rowLog, List.filterMap_append, List.filterMap_map, Function.comp_def, ArrayEvent.stackShape]
  rw [fullLog, List.filterMap_append, List.filterMap_flatMap]
  simp only [hrow]
  refine congrArg (· ++ [(blocksX.length, Bx)]) ?_
  induction blocksX with
  | nil => simp
  | cons x xs ih =>
    rw [List.flatMap_cons, ih, List.length_cons, List.replicate_succ]
    rfl

theorem flatMap_swap {α β γ : Type*} (l : List α) (r : List β) (f : α → β → List γ) :
    (l.flatMap fun a => r.flatMap fun b => f a b).Perm (r.flatMap fun b => l.flatMap fun a => f a b) := by
  induction r with
  | nil => simp
  | cons b r ih =>
    simp only [List.flatMap_cons]
    exact (List.flatMap_append_perm l (fun a => f a b) (fun a => r.flatMap fun b => f a b)).symm.trans (ih.append_left _)

theorem product_flatten {α : Type*} (R C : List (List α)) :
    (R.flatMap fun r => C.flatMap fun c => r ×ˢ c).Perm (R.flatten ×ˢ C.flatten) := by
  induction R with
  | nil => simp
  | cons r R ih =>
    rw [List.flatMap_cons, List.flatten_cons]
    have h1 : (C.flatMap fun c => r ×ˢ c).Perm (r ×ˢ C.flatten) := by
      show (C.flatMap fun c => r.flatMap fun a => c.map (Prod.mk a)).Perm (r.flatMap fun a => C.flatten.map (Prod.mk a))
      refine (flatMap_swap C r fun c a => c.map (Prod.mk a)).trans ?_
      rw [show (fun a => C.flatten.map (Prod.mk a)) = fun a => C.flatMap fun c => c.map (Prod.mk (β := α) a) by
        funext a
        rw [List.map_flatten, List.flatMap_def]]
    have h2 : (r ++ R.flatten) ×ˢ C.flatten = r ×ˢ C.flatten ++ R.flatten ×ˢ C.flatten := by
      show (r ++ R.flatten).flatMap _ = r.flatMap _ ++ R.flatten.flatMap _
      rw [List.flatMap_append]
    rw [h2]
    exact h1.append ih

theorem rows_blocks {n : ℕ} (d : Data n X K) (B : ℕ) :
    ((blocks d B).map fun xb => List.ofFn fun r => (xb r).1).flatten
      = (List.range (numBlocks n B * B)).map fun i => (paddedRow d i).1 := by
  rw [blocks, List.map_map]
  exact flatten_blocks (fun i => (paddedRow d i).1) (numBlocks n B) B

theorem pairs_perm {n m : ℕ} (x : Data n X K) (y : Data m X K) (Bx By : ℕ) :
    ((fullLog (blocks x Bx) (blocks y By)).flatMap ArrayEvent.pairs).Perm
      (((List.range (numBlocks n Bx * Bx)).map fun i => (paddedRow x i).1) ×ˢ
        ((List.range (numBlocks m By * By)).map fun i => (paddedRow y i).1)) := by
  rw [← rows_blocks, ← rows_blocks]
  refine List.Perm.trans ?_ (product_flatten _ _)
  rw [fullLog, List.flatMap_append]
  have h0 : [ArrayEvent.stack (X := X) (blocks x Bx).length Bx].flatMap ArrayEvent.pairs = [] := rfl
  rw [h0, List.append_nil, List.flatMap_assoc, List.flatMap_map]
  have hrow : ∀ xb : Fin Bx → X × K, (rowLog (blocks y By) xb).flatMap ArrayEvent.pairs
      = ((blocks y By).map fun yb => List.ofFn fun c => (yb c).1).flatMap fun c => (List.ofFn fun r => (xb r).1) ×ˢ c := by
    intro xb
    rw [rowLog, List.flatMap_append, List.flatMap_map, List.flatMap_map]
    have : [ArrayEvent.stack (X := X) (blocks y By).length Bx].flatMap ArrayEvent.pairs = [] := rfl
    rw [this, List.append_nil]
    rfl
  simp only [hrow]
  exact List.Perm.refl _

theorem paddedRow_fst (big : K) {n : ℕ} (x : Data n X K) : (fun i => (paddedRow (x.normalizePZ big) i).1) = Spec.rowOrZero x.data := by
  funext i
  unfold paddedRow Spec.rowOrZero
  split_ifs <;> rfl

end MeanTrace

open MeanTrace

variable {X K : Type*} [Zero X] [Field K] [LinearOrder K]

/-- C89: keeping the record changes nothing. -/
theorem C89_value (big : K) (k : X → X → K) {n m : ℕ} (x : Data n X K) (y : Data m X K) (axis : Axis) (bs : PyTree (Option ℤ)) :
    (computeMeanTrace big k x y axis bs).map Prod.fst = computeMean big k x y axis bs := by
  unfold computeMeanTrace computeMean
  generalize treeLeavesRepeat bs 2 = l
  split
  · rename_i bx bY
    cases axis <;> simp only
    · have h := column_value big k x y bx bY
      rw [← h]
      cases columnMeanTrace big k x y bx bY <;> rfl
    · have h := column_value big k y x bY bx
      rw [← h]
      cases columnMeanTrace big k y x bY bx <;> rfl
    · have h := column_value big k x y bx bY
      rw [← h]
      cases columnMeanTrace big k x y bx bY <;> rfl
  · rename_i hl
    split
    · exact absurd rfl (hl _ _)
    · rfl

/-- C89: block sizes `bx`, `bY` (a pair, or one for both).  Let `Bx`, `By` be the lengths of the blocks and `N`, `M` their numbers, as small as possible.  All kernel matrices have the shape
`Bx × By`, there are `N * M` of them, and together they evaluate the kernel at each pair of a row of `x` and a row of `y` exactly once (both filled up with zero rows to whole blocks).
The collected outputs are one array `M × Bx` for each block of `x`, and one array `N × Bx` in the end. -/
theorem C89_arrays (big : K) (k : X → X → K) {n m : ℕ} (hn : 0 < n) (hm : 0 < m) (x : Data n X K) (y : Data m X K) (axis : Axis) (hax : axis ≠ .zero)
    (bs : PyTree (Option ℤ)) (bx bY : Option ℤ) (hbs : bs.leaves = [bx, bY] ∨ (bs.leaves = [bx] ∧ bY = bx)) :
    ∃ l log N M, computeMeanTrace big k x y axis bs = .ok (l, log) ∧
      Spec.IsBlockCount n (Spec.blockLen n bx) N ∧ Spec.IsBlockCount m (Spec.blockLen m bY) M ∧
      log.filterMap ArrayEvent.matrixShape = List.replicate (N * M) (Spec.blockLen n bx, Spec.blockLen m bY) ∧
      log.filterMap ArrayEvent.stackShape = List.replicate N (M, Spec.blockLen n bx) ++ [(N, Spec.blockLen n bx)] ∧
      (log.flatMap ArrayEvent.pairs).Perm
        ((List.range (N * Spec.blockLen n bx)).map (Spec.rowOrZero x.data) ×ˢ (List.range (M * Spec.blockLen m bY)).map (Spec.rowOrZero y.data)) := by
  have hleaves : treeLeavesRepeat bs 2 = [bx, bY] := by
    unfold treeLeavesRepeat
    rcases hbs with h | ⟨h, rfl⟩ <;> simp [h]
  have hBx : 0 < effBlock n bx := Nat.pos_of_ne_zero fun h => hn.ne' (effBlock_eq_zero.1 h)
  have hBy : 0 < effBlock m bY := Nat.pos_of_ne_zero fun h => hm.ne' (effBlock_eq_zero.1 h)
  obtain ⟨r, -, h2⟩ := column_log big k hn hm x y bx bY
  have hl : ∀ {n : ℕ} (d : Data n X K) (B : ℕ), (blocks d B).length = numBlocks n B := fun d B => by simp [blocks]
  rw [← effBlock_spec hn, ← effBlock_spec hm]
  refine ⟨if axis = .none then [r.1] else r.2, fullLog (blocks (x.normalizePZ big) (effBlock n bx)) (blocks (y.normalizePZ big) (effBlock m bY)), numBlocks n (effBlock n bx), numBlocks m (effBlock m bY), ?_, numBlocks_spec hBx, numBlocks_spec hBy, ?_, ?_, ?_⟩
  · cases axis
    · simp [computeMeanTrace, hleaves, h2]
    · exact absurd rfl hax
    · simp [computeMeanTrace, hleaves, h2]
  · rw [filterMap_matrix, hl, hl]
  · rw [filterMap_stack, hl, hl]
  · have := pairs_perm (x.normalizePZ big) (y.normalizePZ big) (effBlock n bx) (effBlock m bY)
    rwa [paddedRow_fst, paddedRow_fst] at this

/-- C89: the row mean (`axis=0`) is computed as column mean with the operands and the block sizes in the other order, and so are its arrays. -/
theorem C89_arrays_row (big : K) (k : X → X → K) {n m : ℕ} (x : Data n X K) (y : Data m X K) (bs bs' : PyTree (Option ℤ)) (bx bY : Option ℤ)
    (hbs : bs.leaves = [bx, bY] ∨ (bs.leaves = [bx] ∧ bY = bx)) (hbs' : bs'.leaves = [bY, bx]) :
    computeMeanTrace big k x y .zero bs = computeMeanTrace big k y x .one bs' := by
  have hleaves : treeLeavesRepeat bs 2 = [bx, bY] := by
    unfold treeLeavesRepeat
    rcases hbs with h | ⟨h, rfl⟩ <;> simp [h]
  have hleaves' : treeLeavesRepeat bs' 2 = [bY, bx] := by
    unfold treeLeavesRepeat
    simp [hbs']
  simp only [computeMeanTrace, hleaves, hleaves']

/-- C89: with one block size `B ≥ 1` for both operands no array on the way has more than `B * B` or more than `max n m + B` entries, and the kernel is evaluated fewer than
`(n + B) * (m + B)` times. -/
theorem C89_memory (big : K) (k : X → X → K) {n m : ℕ} (hn : 0 < n) (hm : 0 < m) (x : Data n X K) (y : Data m X K) (axis : Axis) (B : ℕ) (hB : 0 < B) :
    ∃ l log, computeMeanTrace big k x y axis (.leaf (some (B : ℤ))) = .ok (l, log) ∧
      (∀ e ∈ log, e.entries ≤ max (B * B) (max n m + B)) ∧ (log.flatMap ArrayEvent.pairs).length < (n + B) * (m + B) := by
  have key : ∀ {n m : ℕ} (hn : 0 < n) (hm : 0 < m) (x : Data n X K) (y : Data m X K) (axis : Axis) (hax : axis ≠ .zero) (bs : PyTree (Option ℤ))
      (hbs : bs.leaves = [some (B : ℤ), some (B : ℤ)] ∨ (bs.leaves = [some (B : ℤ)] ∧ some (B : ℤ) = some (B : ℤ))),
      ∃ l log, computeMeanTrace big k x y axis bs = .ok (l, log) ∧
        (∀ e ∈ log, e.entries ≤ max (B * B) (max n m + B)) ∧ (log.flatMap ArrayEvent.pairs).length < (n + B) * (m + B) := by
    intro n m hn hm x y axis hax bs hbs
    obtain ⟨l, log, N, M, h1, hN, hM, h2, h3, h4⟩ := C89_arrays big k hn hm x y axis hax bs (some B) (some B) hbs
    have hlen : ∀ {n : ℕ}, 0 < n → Spec.blockLen n (some (B : ℤ)) ≤ B ∧ 0 < Spec.blockLen n (some (B : ℤ)) := by
      intro n hn
      simp only [Spec.blockLen]
      split_ifs <;> omega
    have hcount : ∀ {n N : ℕ}, 0 < n → Spec.IsBlockCount n (Spec.blockLen n (some (B : ℤ))) N → N * Spec.blockLen n (some (B : ℤ)) < n + B := by
      intro n N hn hN
      have h0 := hN.2 _ (numBlocks_spec (n := n) (hlen hn).2).1
      have h5 := numBlocks_mul_lt (n := n) (hlen hn).2
      have h6 := (hlen hn).1
      have h7 := Nat.mul_le_mul_right (Spec.blockLen n (some (B : ℤ))) h0
      omega
    have hsteps : ∀ {n N : ℕ}, 0 < n → Spec.IsBlockCount n (Spec.blockLen n (some (B : ℤ))) N → N * B ≤ n + B := by
      intro n N hn hN
      by_cases hBn : B ≤ n
      · have e : Spec.blockLen n (some (B : ℤ)) = B := by
          simp only [Spec.blockLen]
          split_ifs <;> omega
        have := hcount hn hN
        rw [e] at this
        omega
      · have e : Spec.blockLen n (some (B : ℤ)) = n := by
          simp only [Spec.blockLen]
          split_ifs <;> omega
        have h1 : N ≤ 1 := hN.2 1 (by rw [e]; omega)
        have h2 := Nat.mul_le_mul_right B h1
        omega
    refine ⟨l, log, h1, fun e he => ?_, ?_⟩
    · cases e with
      | matrix r c =>
        have hmem : (r.length, c.length) ∈ log.filterMap ArrayEvent.matrixShape := List.mem_filterMap.2 ⟨_, he, rfl⟩
        rw [h2] at hmem
        have := List.eq_of_mem_replicate hmem
        rw [Prod.mk.injEq] at this
        refine le_trans ?_ (le_max_left _ _)
        show r.length * c.length ≤ _
        rw [this.1, this.2]
        exact Nat.mul_le_mul (hlen hn).1 (hlen hm).1
      | stack a b =>
        have hmem : (a, b) ∈ log.filterMap ArrayEvent.stackShape := List.mem_filterMap.2 ⟨_, he, rfl⟩
        rw [h3, List.mem_append, List.mem_singleton] at hmem
        refine le_trans ?_ (le_max_right _ _)
        show a * b ≤ _
        rcases hmem with hmem | hmem
        · have := List.eq_of_mem_replicate hmem
          rw [Prod.mk.injEq] at this
          rw [this.1, this.2]
          have h5 := Nat.mul_le_mul_left M (hlen hn).1
          have h6 := hsteps hm hM
          have := le_max_right n m
          omega
        · rw [Prod.mk.injEq] at hmem
          rw [hmem.1, hmem.2]
          have := hcount hn hN
          have := le_max_left n m
          omega
    · rw [h4.length_eq, List.length_product, List.length_map, List.length_map, List.length_range, List.length_range]
      exact Nat.mul_lt_mul'' (hcount hn hN) (hcount hm hM)
  by_cases hax : axis = .zero
  · subst hax
    rw [C89_arrays_row big k x y (.leaf (some (B : ℤ))) (.node [.leaf (some (B : ℤ)), .leaf (some (B : ℤ))]) (some B) (some B) (Or.inr ⟨rfl, rfl⟩) rfl]
    obtain ⟨l, log, h1, h2, h3⟩ := key hm hn y x .one (by decide) (.node [.leaf (some (B : ℤ)), .leaf (some (B : ℤ))]) (Or.inl rfl)
    refine ⟨l, log, h1, fun e he => ?_, ?_⟩
    · rw [max_comm n m]
      exact h2 e he
    · rwa [Nat.mul_comm]
  · exact key hn hm x y axis hax (.leaf (some (B : ℤ))) (Or.inr ⟨rfl, rfl⟩)

/-- C89: the documented memory cost `O(Bx * By)` does not hold for all block sizes, even if the space for the data is allowed on top: with `block_size=(None, 1)` and `n` rows on either side the
outputs collected by the inner scan fill an array of `n * n` entries, although `Bx * By = n`. -/
theorem C89_memory_unbounded (big : K) (k : X → X → K) (c : ℕ) :
    ∃ n, 0 < n ∧ ∀ (x y : Data n X K), ∃ l log, computeMeanTrace big k x y .one (.node [.leaf none, .leaf (some 1)]) = .ok (l, log) ∧
      ∃ e ∈ log, e.entries = n * n ∧ c * (Spec.blockLen n none * Spec.blockLen n (some 1) + n + n) < e.entries := by
  refine ⟨3 * c + 1, by omega, fun x y => ?_⟩
  obtain ⟨l, log, N, M, h1, hN, hM, -, h3, -⟩ :=
    C89_arrays big k (Nat.succ_pos (3 * c)) (Nat.succ_pos (3 * c)) x y .one (by decide) (.node [.leaf none, .leaf (some 1)]) none (some 1) (Or.inl rfl)
  have hB1 : Spec.blockLen (3 * c + 1) (some 1) = 1 := by simp [Spec.blockLen]
  have hBn : Spec.blockLen (3 * c + 1) none = 3 * c + 1 := rfl
  rw [hB1] at hM
  rw [hBn] at hN
  have hM' : M = 3 * c + 1 := le_antisymm (hM.2 _ (by omega)) (by have := hM.1; omega)
  have hN' : N ≠ 0 := by
    rintro rfl
    have := hN.1
    omega
  refine ⟨l, log, h1, .stack M (3 * c + 1), ?_, ?_, ?_⟩
  · have hmem : (M, 3 * c + 1) ∈ log.filterMap ArrayEvent.stackShape := by
      rw [h3, hBn]
      exact List.mem_append_left _ (List.mem_replicate.2 ⟨hN', rfl⟩)
    obtain ⟨e, he, hshape⟩ := List.mem_filterMap.1 hmem
    cases e with
    | matrix r c => cases hshape
    | stack a b =>
      simp only [ArrayEvent.stackShape, Option.some.injEq, Prod.mk.injEq] at hshape
      rw [← hshape.1, ← hshape.2]
      exact he
  · show M * (3 * c + 1) = _
    rw [hM']
  · show _ < M * (3 * c + 1)
    rw [hB1, hBn, hM']
    nlinarith

/-- Five rows against three, in blocks of two: six matrices. -/
example : (computeMeanTrace (K := ℚ) 1000 (fun a b : ℚ => a * b + 1) (Data.ofArray ![1, 2, 3, 4, 5]) (Data.ofArray ![1, 2, 3]) .one (.leaf (some 2))).toOption.map
      (fun r => r.2.filterMap ArrayEvent.matrixShape) = some (List.replicate 6 (2, 2)) := by
  decide +kernel

example : (computeMeanTrace (K := ℚ) 1000 (fun a b : ℚ => a * b + 1) (Data.ofArray ![1, 2, 3]) (Data.ofArray ![4, 5]) .one (.leaf (some 2))).toOption.map
      (fun r => r.2.flatMap ArrayEvent.pairs) = some [(1, 4), (1, 5), (2, 4), (2, 5), (3, 4), (3, 5), (0, 4), (0, 5)] := by
  decide +kernel

example := C89_value (K := ℚ) 1000 (fun a b : ℚ => a * b + 1) (Data.ofArray ![1, 2, 3]) (Data.ofArray ![4, 5]) .zero (.leaf (some 2))

example := C89_arrays (K := ℚ) 1000 (fun a b : ℚ => a * b + 1) (by norm_num) (by norm_num) (Data.ofArray ![1, 2, 3]) (Data.ofArray ![4, 5]) .none (by decide)
  (.node [.leaf (some 2), .leaf none]) (some 2) none (Or.inl rfl)

example := C89_arrays_row (K := ℚ) 1000 (fun a b : ℚ => a * b + 1) (Data.ofArray ![1, 2, 3]) (Data.ofArray ![4, 5])
  (.node [.leaf (some 2), .leaf none]) (.node [.leaf none, .leaf (some 2)]) (some 2) none (Or.inl rfl) rfl

example := C89_memory (K := ℚ) 1000 (fun a b : ℚ => a * b + 1) (by norm_num) (by norm_num) (Data.ofArray ![1, 2, 3]) (Data.ofArray ![4, 5]) .zero 2 (by norm_num)

example := C89_memory_unbounded (K := ℚ) 1000 (fun a b : ℚ => a * b + 1) 1000

end Coreax
