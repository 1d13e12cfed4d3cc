import Verif.Model.Data

/-!
# Model of the blocked kernel mean

`/repo/coreax/util.py` (`tree_leaves_repeat`, `tree_zero_pad_leading_axis`),
`/repo/coreax/kernels/util.py` (`_block_data_convert`),
`/repo/coreax/kernels/base.py` (`compute_mean`, `gramian_row_mean`).

A row has type `X` (in the library `Fin d → K`), with a zero row used for padding.  A kernel is an arbitrary
function `k : X → X → K` (its `compute_elementwise`).  `unroll` only selects how `lax.scan` is compiled and is
not represented.
-/

namespace Coreax

/-- A PyTree with leaves of type `α` (`None` counts as a leaf: `is_leaf=lambda x: x is None`). -/
inductive PyTree (α : Type*)
  | leaf (a : α)
  | node (children : List (PyTree α))

mutual
/-- `jtu.tree_leaves`. -/
def PyTree.leaves {α : Type*} : PyTree α → List α
  | .leaf a => [a]
  | .node cs => PyTree.leavesList cs
/-- The leaves of a list of children, in order. -/
def PyTree.leavesList {α : Type*} : List (PyTree α) → List α
  | [] => []
  | c :: cs => c.leaves ++ PyTree.leavesList cs
end

/-- `tree_leaves_repeat`; `/repo/coreax/util.py:96-112`.  `leaves[-1:] * num_repeats` is empty for
`num_repeats ≤ 0` and for an empty tree. -/
def treeLeavesRepeat {α : Type*} (tree : PyTree α) (length : ℕ) : List α :=
  let leaves := tree.leaves
  leaves ++ (List.replicate (length - leaves.length) (leaves.drop (leaves.length - 1))).flatten

/-- `tree_zero_pad_leading_axis` on one array leaf; `/repo/coreax/util.py:115-133`. -/
def zeroPad {n : ℕ} {α : Type*} [Zero α] (a : Fin n → α) (pad : ℕ) : Fin (n + pad) → α :=
  Fin.append a (fun _ => 0)

/-- `tree_zero_pad_leading_axis` on the list of rows of each array leaf, with the check of the sign;
`/repo/coreax/util.py:115-133`. -/
def treeZeroPad {α : Type*} [Zero α] (leaves : List (List α)) (pad : ℤ) : Except Err (List (List α)) :=
  if pad < 0 then .error .valueError
  else .ok (leaves.map (fun l => l ++ List.replicate pad.toNat 0))

/-- `jax.lax.scan`. -/
def scan {σ α β : Type*} (f : σ → α → σ × β) : σ → List α → σ × List β
  | s, [] => (s, [])
  | s, a :: as =>
    let r := f s a
    let rest := scan f r.1 as
    (rest.1, r.2 :: rest.2)

/-- Effective block size; `/repo/coreax/kernels/util.py:34`. -/
def effBlock (n : ℕ) : Option ℤ → ℕ
  | none => n
  | some b => min (max b 1).toNat n

/-- `ceil(len(x) / block_size)`; `/repo/coreax/kernels/util.py:35` (exact integer ceiling). -/
def numBlocks (n B : ℕ) : ℕ := (n + B - 1) / B

section
variable {X K : Type*} [Zero X] [Field K] [LinearOrder K]

/-- Row `j` of the zero-padded data and weights; `/repo/coreax/kernels/util.py:36`. -/
def paddedRow {n : ℕ} (d : Data n X K) (j : ℕ) : X × K :=
  if h : j < n then (d.data ⟨j, h⟩, d.weights ⟨j, h⟩) else (0, 0)

/-- `_block_data_convert`; `/repo/coreax/kernels/util.py:29-47`.  Normalise, pad, reshape to
`(num_blocks, B, ...)`.  For an empty `x` the effective block size is zero and line 35 divides by it. -/
def blockDataConvert (big : K) {n : ℕ} (d : Data n X K) (b : Option ℤ) :
    Except Err ((B : ℕ) × List (Fin B → X × K)) :=
  let B := effBlock n b
  if B = 0 then .error .zeroDivisionError
  else
    let x := d.normalizePZ big
    .ok ⟨B, (List.range (numBlocks n B)).map (fun blk r => paddedRow x (blk * B + r))⟩

/-- `slice_sum`; `/repo/coreax/kernels/base.py:567-575`. -/
def sliceSum (k : X → X → K) {Bx By : ℕ} (xb : Fin Bx → X × K) (acc : K) (yb : Fin By → X × K) :
    K × (Fin Bx → K) :=
  let column : Fin Bx → K := fun r => ∑ c, k (xb r).1 (yb c).1 * (yb c).2
  (acc + ∑ r, (xb r).2 * column r, column)

/-- `block_sum`; `/repo/coreax/kernels/base.py:562-580`. -/
def blockSum (k : X → X → K) {Bx By : ℕ} (blocksY : List (Fin By → X × K)) (acc : K)
    (xb : Fin Bx → X × K) : K × (Fin Bx → K) :=
  let r := scan (sliceSum k xb) acc blocksY
  (r.1, fun i => (r.2.map (fun c => c i)).sum)

/-- The two results of the double scan for `axis = 1` operand order: accumulated sum, and the cropped column sums;
`/repo/coreax/kernels/base.py:555-589`. -/
def columnMean (big : K) (k : X → X → K) {n m : ℕ} (x : Data n X K) (y : Data m X K) (bx «by» : Option ℤ) :
    Except Err (K × List K) :=
  match blockDataConvert big x bx with
  | .error e => .error e
  | .ok ⟨_, blocksX⟩ =>
    match blockDataConvert big y «by» with
    | .error e => .error e
    | .ok ⟨_, blocksY⟩ =>
      let r := scan (blockSum k blocksY) 0 blocksX
      let padded := (r.2.map List.ofFn).flatten
      .ok (r.1, padded.take n)

/-- The `axis` argument of `compute_mean`. -/
inductive Axis
  | none
  | zero
  | one
  deriving DecidableEq

/-- `ScalarValuedKernel.compute_mean`; `/repo/coreax/kernels/base.py:480-589`.  The result of `axis=None` is a
one-element list.  `axis=0` swaps the operands (lines 546-549). -/
def computeMean (big : K) (k : X → X → K) {n m : ℕ} (x : Data n X K) (y : Data m X K) (axis : Axis)
    (blockSize : PyTree (Option ℤ)) : Except Err (List K) :=
  match treeLeavesRepeat blockSize 2 with
  | [bx, «by»] =>
    match axis with
    | .zero => match columnMean big k y x «by» bx with
      | .ok r => .ok r.2
      | .error e => .error e
    | .one => match columnMean big k x y bx «by» with
      | .ok r => .ok r.2
      | .error e => .error e
    | .none => match columnMean big k x y bx «by» with
      | .ok r => .ok [r.1]
      | .error e => .error e
  | _ => .error .valueError

/-- `gramian_row_mean`; `/repo/coreax/kernels/base.py:392-415`. -/
def gramianRowMean (big : K) (k : X → X → K) {n : ℕ} (x : Data n X K) (blockSize : PyTree (Option ℤ)) :
    Except Err (List K) :=
  computeMean big k x x .zero blockSize

end

/-- `as_data` of a raw array: unit weights; `/repo/coreax/data.py:260-262`. -/
def Data.ofArray {n : ℕ} {X K : Type*} [One K] (x : Fin n → X) : Data n X K := ⟨x, fun _ => 1⟩

/-- View a length-`n` result as an indexed array (only used on lists proved to have length `n`). -/
def asVec {K : Type*} [Zero K] (n : ℕ) (l : List K) : Fin n → K := fun i => l.getD i 0

end Coreax
