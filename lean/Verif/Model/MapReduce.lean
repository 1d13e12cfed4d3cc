import Verif.Model.Coreset
import Verif.Model.Greedy
import Mathlib.Data.Nat.Log
import Mathlib.Algebra.NeZero

/-!
# Model of `coreax/solvers/composite.py`

`MapReduce` with a base solver returning a `Coresubset` (all explicit-size solvers of the library do).  The spatial tree
of scikit-learn is an external function returning an index array.  The recursion of `reduce` need not end, so the model
has a bound on the number of rounds: `none` means that the bound is exhausted.
-/

namespace Coreax

/-- `MapReduce.__check_init__`; `/repo/coreax/solvers/composite.py:108-123`. `size` is `none` for a base solver that is not
an `ExplicitSizeSolver`; the warning is not modelled. -/
def mrCheckInit (leafSize : ℤ) (size : Option ℤ) : Except Err Unit :=
  match size with
  | none => .error .valueError
  | some s => if leafSize ≤ s then .error .valueError else .ok ()

/-- `max(1, leaf_size // 2)`; `/repo/coreax/solvers/composite.py:222`. -/
def halfLeaf (leaf : ℕ) : ℕ := max 1 (leaf / 2)

/-- `n_leaves`; `/repo/coreax/solvers/composite.py:223`: `floor(log2(q))` of a rational `q ≥ 1` is the integer logarithm
of its integer part (`Model/FloatLog.lean` has the computed one), and `max(0, ·)` covers `q < 1`. -/
def nLeaves (n leaf : ℕ) : ℕ := 2 ^ Nat.log 2 ((n - 1) / halfLeaf leaf)

/-- The number of rows of a partition, `math.ceil(len(dataset) / n_leaves)`; `/repo/coreax/solvers/composite.py:224-226`. -/
def partRows (n leaf : ℕ) : ℕ := (n + nLeaves n leaf - 1) / nLeaves n leaf

/-- `padding`; `/repo/coreax/solvers/composite.py:224`. -/
def mrPadding (n leaf : ℕ) : ℕ := partRows n leaf * nLeaves n leaf - n

instance nLeavesNeZero (n leaf : ℕ) : NeZero (nLeaves n leaf) := ⟨(Nat.pow_pos (by norm_num)).ne'⟩

instance partRowsNeZero (n leaf : ℕ) [NeZero n] : NeZero (partRows n leaf) :=
  ⟨by
    have h1 := NeZero.pos n
    have h2 := NeZero.pos (nLeaves n leaf)
    exact (Nat.div_pos (by omega) h2).ne'⟩

instance mrSizeNeZero (n leaf size : ℕ) [NeZero size] : NeZero (nLeaves n leaf * size) :=
  ⟨Nat.mul_ne_zero (NeZero.ne _) (NeZero.ne _)⟩

instance mrPadNeZero (n p : ℕ) [NeZero n] : NeZero (n + p) := ⟨by have := NeZero.ne n; omega⟩

/-- `node_indices.reshape(n_leaves, -1)` of the spatial tree of the padded dataset;
`/repo/coreax/solvers/composite.py:229-235` (external). -/
abbrev TreeIndices (X K : Type*) := ∀ (N nl rows : ℕ), Data N X K → Fin nl → Fin rows → ℤ

/-- `base_solver.reduce`: the indices of the coresubset. -/
abbrev BaseSolver (X K : Type*) (size : ℕ) := ∀ (n : ℕ) [NeZero n], Data n X K → Except Err (Data size ℤ K)

/-- A `vmap` of calls that may raise: the first error. -/
def seqFin {α : Type*} : (m : ℕ) → (Fin m → Except Err α) → Except Err (Fin m → α)
  | 0, _ => .ok (fun i => i.elim0)
  | m + 1, f => match f 0 with
    | .error e => .error e
    | .ok a => match seqFin m (fun i => f i.succ) with
      | .error e => .error e
      | .ok r => .ok (Fin.cons a r)

section
variable {X K : Type*} [Zero X] [Zero K]

/-- `tree_zero_pad_leading_axis(dataset, padding)`; `/repo/coreax/util.py:115-133`. -/
def Data.pad {n : ℕ} (d : Data n X K) (p : ℕ) : Data (n + p) X K := ⟨zeroPad d.data p, zeroPad d.weights p⟩

/-- `partitioned_dataset` of `_jit_tree`; `/repo/coreax/solvers/composite.py:225, 236`. -/
def partData (leaf : ℕ) (tree : TreeIndices X K) {n : ℕ} [NeZero n] (d : Data n X K) (q : Fin (nLeaves n leaf)) :
    Data (partRows n leaf) X K :=
  (d.pad (mrPadding n leaf)).getItem (tree _ (nLeaves n leaf) (partRows n leaf) (d.pad (mrPadding n leaf)) q)

/-- `partitioned_indices` of `_jit_tree`, `jnp.arange(len(dataset))[indices]`; `/repo/coreax/solvers/composite.py:236`: the
gather clamps the indices of padding rows to the last row. -/
def partIdx (leaf : ℕ) (tree : TreeIndices X K) {n : ℕ} [NeZero n] (d : Data n X K) (q : Fin (nLeaves n leaf))
    (t : Fin (partRows n leaf)) : ℤ :=
  ((gatherIdx n (tree _ (nLeaves n leaf) (partRows n leaf) (d.pad (mrPadding n leaf)) q t) : Fin n) : ℤ)

/-- The concatenated coresets of the partitions; `/repo/coreax/solvers/composite.py:151-168, 174`: points are the selected rows with
the coreset's weights. -/
def mrConcat (leaf : ℕ) (tree : TreeIndices X K) {n size : ℕ} [NeZero n] (d : Data n X K)
    (r : Fin (nLeaves n leaf) → Data size ℤ K) : Data (nLeaves n leaf * size) X K where
  data p := (partData leaf tree d (finProdFinEquiv.symm p).1).data
    (gatherIdx _ ((r (finProdFinEquiv.symm p).1).data (finProdFinEquiv.symm p).2))
  weights p := (r (finProdFinEquiv.symm p).1).weights (finProdFinEquiv.symm p).2

/-- `concatenated_indices`; `/repo/coreax/solvers/composite.py:169-173`. -/
def mrIndices (leaf : ℕ) (tree : TreeIndices X K) {n size : ℕ} [NeZero n] (d : Data n X K)
    (r : Fin (nLeaves n leaf) → Data size ℤ K) (p : Fin (nLeaves n leaf * size)) : ℤ :=
  partIdx leaf tree d (finProdFinEquiv.symm p).1
    (gatherIdx _ ((r (finProdFinEquiv.symm p).1).data (finProdFinEquiv.symm p).2))

/-- `_indices[i]` when there are indices already; `/repo/coreax/solvers/composite.py:176-179` (and 147-148). -/
def composeIdx {n m : ℕ} [NeZero n] (idx : Option (Fin n → ℤ)) (i : Fin m → ℤ) : Fin m → ℤ :=
  match idx with
  | none => i
  | some f => fun t => f (gatherIdx n (i t))

/-- `_reduce_coreset` and the correction of the result; `/repo/coreax/solvers/composite.py:142-188`: the result is the data of
the coreset's indices. -/
def mrRun {size : ℕ} [NeZero size] (leaf : ℕ) (base : BaseSolver X K size) (tree : TreeIndices X K) :
    (fuel : ℕ) → (n : ℕ) → [NeZero n] → Data n X K → Option (Fin n → ℤ) → Option (Except Err (Data size ℤ K))
  | 0, _, _, _, _ => none
  | fuel + 1, n, _, d, idx =>
    if n ≤ leaf then
      some (match base n d with
        | .error e => .error e
        | .ok c => .ok ⟨composeIdx idx c.data, c.weights⟩)
    else
      match seqFin (nLeaves n leaf) (fun q => base (partRows n leaf) (partData leaf tree d q)) with
      | .error e => some (.error e)
      | .ok r => mrRun leaf base tree fuel (nLeaves n leaf * size) (mrConcat leaf tree d r)
          (some (composeIdx idx (mrIndices leaf tree d r)))

end

end Coreax
