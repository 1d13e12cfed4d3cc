import Verif.Model.Coreset
import Verif.Model.Batch
import Mathlib.Data.Nat.Log

/-!
# Model of `coreax/solvers/recombination.py`

The singular value decomposition is an external function.  Arithmetic is exact; the only place where the code can
leave the finite numbers, a null-space vector without positive entry, is represented by `none`.
-/

namespace Coreax

/-- Output of `jsp.linalg.svd(nodes, full_matrices=True)`; `/repo/coreax/solvers/recombination.py:374` (external). -/
structure SvdOut (n m : ℕ) (K : Type*) where
  q : Fin n → Fin n → K
  s : Fin (min n m) → K
  vt : Fin m → Fin m → K

/-- The values of `mode`; `/repo/coreax/solvers/recombination.py:130`. -/
inductive RecombMode
  | implicitExplicit
  | implicit
  | explicit
  deriving DecidableEq

/-- `RecombinationSolver.__check_init__`; `/repo/coreax/solvers/recombination.py:132-137`. -/
def recombCheckInit (mode : String) : Except Err RecombMode :=
  if mode = "implicit-explicit" then .ok .implicitExplicit
  else if mode = "implicit" then .ok .implicit
  else if mode = "explicit" then .ok .explicit
  else .error .valueError

/-- `_push_forward` with `augment=True`, one row; `/repo/coreax/solvers/recombination.py:278-305` (`test_functions=None` is the
identity). -/
def augment {m : ℕ} {K : Type*} [One K] (v : Fin m → K) : Fin (m + 1) → K := Fin.cons 1 v

/-- A function returning a basis (rows) and the dimension of the left null space of a node matrix, as
`_resolve_null_basis` does. -/
abbrev NullResolver (K : Type*) := ∀ (n m : ℕ), (Fin n → Fin m → K) → (Fin n → Fin n → K) × ℕ

section
variable {K : Type*} [Field K] [LinearOrder K]

/-- `_resolve_rcond`; `/repo/coreax/solvers/recombination.py:388-404`. `eps` is the machine epsilon. -/
def nodesRcond (eps : K) (n m : ℕ) : Option K → K
  | none => eps * ((max n m : ℕ) : K)
  | some r => if r < 0 then eps else r

/-- The cut-off for singular values; `/repo/coreax/solvers/recombination.py:375-377`. -/
def svdCutoff (eps : K) (rcond : Option K) {n m : ℕ} (s : Fin (min n m) → K) : K :=
  if h : 0 < min n m then nodesRcond eps n m rcond * s ⟨0, h⟩ else nodesRcond eps n m rcond

/-- `_resolve_null_basis`; `/repo/coreax/solvers/recombination.py:356-382`: `q.T[::-1]` and the number of singular values at or
below the cut-off (plus the surplus of rows). -/
def resolveNullBasis (svd : ∀ n m, (Fin n → Fin m → K) → SvdOut n m K) (eps : K) (rcond : Option K) : NullResolver K :=
  fun n m nodes =>
    (fun i j => (svd n m nodes).q j i.rev,
      n - (Finset.univ.filter (fun i => svdCutoff eps rcond (svd n m nodes).s < (svd n m nodes).s i)).card)

/-- `jnp.argmax` of numbers: the first maximum. -/
def argmaxFirst {n : ℕ} [NeZero n] (w : Fin n → K) : Fin n := gatherIdx n (nanargmax (fun i => Ext.fin (w i)))

/-- `jnp.argmin` of numbers: the first minimum. -/
def argminFirst {n : ℕ} [NeZero n] (w : Fin n → K) : Fin n := gatherIdx n (argminNan (fun i => Ext.fin (w i)))

/-- `n_zeros` of `_co_linearize`; `/repo/coreax/solvers/recombination.py:339-340`. -/
def nZeros {n : ℕ} (w : Fin n → K) : ℕ := (Finset.univ.filter (fun t => ¬ 0 < w t)).card

/-- `indices` of `_co_linearize`; `/repo/coreax/solvers/recombination.py:337-345`. -/
def colinIdx {n : ℕ} [NeZero n] (w : Fin n → K) (t : Fin n) : Fin n := if 0 < w t then t else argmaxFirst w

/-- The weights returned by `_co_linearize`; `/repo/coreax/solvers/recombination.py:348-349`. -/
def colinWeights {n : ℕ} [NeZero n] (w : Fin n → K) (t : Fin n) : K :=
  Function.update w (argmaxFirst w) (w (argmaxFirst w) / ((nZeros w : K) + 1)) (colinIdx w t)

/-- `_EliminationState` without the counter; `/repo/coreax/solvers/recombination.py:140-143`. -/
structure ElimState (n : ℕ) (K : Type*) where
  weights : Fin n → K
  basis : Fin n → Fin n → K

/-- `elimination_condition`; `/repo/coreax/solvers/recombination.py:242-244`. -/
def elimCond {n : ℕ} (w v : Fin n → K) (j : Fin n) : Ext K := if 0 < v j then Ext.fin (w j / v j) else Ext.pinf

/-- `_eliminate` with basis vector number `i`; `/repo/coreax/solvers/recombination.py:215-264`. `none` if the rescaling factor is
infinite. -/
def eliminate {n : ℕ} [NeZero n] (st : ElimState n K) (i : Fin n) : Option (ElimState n K) :=
  let v := st.basis i
  let idx := gatherIdx n (argminNan (elimCond st.weights v))
  match elimCond st.weights v idx with
  | Ext.fin f => some
    { weights := Function.update (fun j => st.weights j - f * v j) idx 0
      basis := fun k => Function.update (fun j => st.basis k j - st.basis k idx * (v j / v idx)) idx 0 }
  | _ => none

/-- The `while_loop`: `_eliminate` for the basis vectors `0, …, r - 1`; `/repo/coreax/solvers/recombination.py:195-213, 266-267`. -/
def elimLoop {n : ℕ} [NeZero n] (r : ℕ) (st : ElimState n K) : Option (ElimState n K) :=
  forLoop r (fun i (acc : Option (ElimState n K)) => acc.bind (fun st => eliminate st (gatherIdx n i))) (some st)

/-- `jnp.flatnonzero(weights)`. -/
def flatNonzero {n : ℕ} (w : Fin n → K) : List (Fin n) := (List.finRange n).filter (fun t => w t ≠ 0)

/-- `jnp.flatnonzero(weights, size=k, fill_value=jnp.argmin(weights))`. -/
def flatNonzeroSized {n : ℕ} [NeZero n] (w : Fin n → K) (k : ℕ) : Fin k → Fin n :=
  fun t => (flatNonzero w).getD t (argminFirst w)

/-- `_coresubset_nodes`; `/repo/coreax/solvers/recombination.py:407-458`. `n` and `m` are the number of rows of the push-forward
nodes and the number of test functions including the constant one (lines 430-431), `N` the number of weights.  Explicit
mode under a transformation such as `jit` (line 448) is not modelled. -/
def coresubsetNodes (n m : ℕ) {N : ℕ} [NeZero N] (w : Fin N → K) (indices : Fin N → ℤ) :
    RecombMode → (k : ℕ) × Data k ℤ K
  | .implicitExplicit => ⟨min n m, fun t => indices (flatNonzeroSized w (min n m) t), fun t => w (flatNonzeroSized w (min n m) t)⟩
  | .implicit => ⟨n, fun t => indices (flatNonzeroSized w n t), fun t => w (flatNonzeroSized w n t)⟩
  | .explicit => ⟨(flatNonzero w).length, fun t => indices ((flatNonzero w).get t), fun t => w ((flatNonzero w).get t)⟩

/-- The body of `CaratheodoryRecombination.reduce` up to the construction of the coreset: the final weights and the indices;
`/repo/coreax/solvers/recombination.py:184-267`. `test` is the vector of test functions without the constant one. -/
def caraWeights {X : Type*} {n m : ℕ} [NeZero n] (big : K) (null : NullResolver K) (test : X → Fin m → K) (d : Data n X K) :
    Option (Fin n → K) :=
  let w := (d.normalizePZ big).weights
  let nodes := fun t => augment (test (d.data (colinIdx w t)))
  let nb := null n (m + 1) nodes
  (elimLoop nb.2 ⟨colinWeights w, nb.1⟩).map ElimState.weights

/-- `CaratheodoryRecombination.reduce`; `/repo/coreax/solvers/recombination.py:180-275`. -/
def caraReduce {X : Type*} {n m : ℕ} [NeZero n] (big : K) (null : NullResolver K) (test : X → Fin m → K) (mode : RecombMode)
    (d : Data n X K) : Option ((k : ℕ) × Data k ℤ K) :=
  (caraWeights big null test d).map (fun out =>
    coresubsetNodes n (m + 1) out (fun t => ((colinIdx (d.normalizePZ big).weights t : ℕ) : ℤ)) mode)

/-! ### Tree recombination -/

/-- The number of rounds: `max(1, ceil(log(n / m, c)))` with an exact logarithm; `/repo/coreax/solvers/recombination.py:586`. -/
def treeDepth (n m c : ℕ) : ℕ := max 1 (Nat.clog c ((n + m - 1) / m))

/-- `_prepare_tree`; `/repo/coreax/solvers/recombination.py:570-588`: padding, number of clusters, depth.  The logarithm raises for
bases one (division by zero) and below. -/
def prepareTree (n m : ℕ) (c : ℤ) : Except Err (ℕ × ℕ × ℕ) :=
  if c ≤ 0 then .error .valueError
  else if c = 1 then .error .zeroDivisionError
  else .ok (m * c.toNat ^ treeDepth n m c.toNat - n, c.toNat * m, treeDepth n m c.toNat)

/-- The position of an entry in the stable ascending order. -/
def rankOf {N : ℕ} (w : Fin N → K) (t : Fin N) : ℕ :=
  (Finset.univ.filter (fun s => w s < w t ∨ (w s = w t ∧ s < t))).card

/-- `jnp.argsort` (stable): the entry with a given position in the ascending order. -/
def argsort {N : ℕ} [NeZero N] (w : Fin N → K) (p : Fin N) : Fin N :=
  ((List.finRange N).find? (fun t => rankOf w t = p)).getD 0

variable {m count rows : ℕ} [NeZero count] [NeZero rows] [NeZero (rows * count)]

/-- The entry `(q, j)` of `a.reshape(count, -1, order="F")`; its inverse is `reshape(-1, order="F")`;
`/repo/coreax/solvers/recombination.py:542, 559-560`. -/
def fOrder (q : Fin count) (j : Fin rows) : Fin (rows * count) := finProdFinEquiv (j, q)

/-- `centroid_indices`; `/repo/coreax/solvers/recombination.py:542`. -/
def centroidIdx (w : Fin (rows * count) → K) (q : Fin count) (j : Fin rows) : Fin (rows * count) := argsort w (fOrder q j)

/-- `centroid_weights`; `/repo/coreax/solvers/recombination.py:607`. -/
def centroidWeight (w : Fin (rows * count) → K) (q : Fin count) : K := ∑ j, w (centroidIdx w q j)

/-- `centroid_nodes`; `/repo/coreax/solvers/recombination.py:543-546, 606`: the quotient `0 / 0` becomes zero by `nan_to_num`, which is
what division in `K` gives. -/
def centroidNode {n : ℕ} [NeZero n] (pf : Fin n → Fin m → K) (w : Fin (rows * count) → K) (idx : Fin (rows * count) → ℤ)
    (q : Fin count) (l : Fin m) : K :=
  (∑ j, w (centroidIdx w q j) * pf (gatherIdx n (idx (centroidIdx w q j))) l) / centroidWeight w q

/-- The coresubset of the centroids as arrays of length `count`, `CaratheodoryRecombination(mode="implicit")`;
`/repo/coreax/solvers/recombination.py:515, 547-551`. -/
def centroidCoreset (big : K) (null : NullResolver K) (d : Data count (Fin m → K) K) : Option (Data count ℤ K) :=
  (caraWeights big null id d).map (fun out =>
    ⟨fun t => ((colinIdx (d.normalizePZ big).weights (flatNonzeroSized out count t) : ℕ) : ℤ),
      fun t => out (flatNonzeroSized out count t)⟩)

/-- `_tree_reduce`; `/repo/coreax/solvers/recombination.py:517-560`. The division by a centroid weight is exact when that weight is
not zero (which is proved where the model is used); the code has NaN for `0 / 0`. -/
def treeStep {n : ℕ} [NeZero n] (big : K) (null : NullResolver K) (pf : Fin n → Fin m → K)
    (st : Data (rows * count) ℤ K) : Option (Data (rows * count) ℤ K) :=
  (centroidCoreset big null ⟨centroidNode pf st.weights st.data, centroidWeight st.weights⟩).map (fun c =>
    { data := fun p => st.data (centroidIdx st.weights (gatherIdx count (c.data (finProdFinEquiv.symm p).2)) (finProdFinEquiv.symm p).1)
      weights := fun p =>
        st.weights (centroidIdx st.weights (gatherIdx count (c.data (finProdFinEquiv.symm p).2)) (finProdFinEquiv.symm p).1) *
          (c.weights (finProdFinEquiv.symm p).2 /
            centroidWeight st.weights (gatherIdx count (c.data (finProdFinEquiv.symm p).2))) })

/-- `in_state`: the padded weights and all row numbers; `/repo/coreax/solvers/recombination.py:562`. -/
def treeInit {n : ℕ} (N : ℕ) (w : Fin n → K) : Data N ℤ K :=
  ⟨fun p => ((p : ℕ) : ℤ), fun p => if h : (p : ℕ) < n then w ⟨p, h⟩ else 0⟩

/-- The `fori_loop`; `/repo/coreax/solvers/recombination.py:563`. -/
def treeLoop {n : ℕ} [NeZero n] (big : K) (null : NullResolver K) (pf : Fin n → Fin m → K) (depth : ℕ)
    (st : Data (rows * count) ℤ K) : Option (Data (rows * count) ℤ K) :=
  forLoop depth (fun _ (acc : Option (Data (rows * count) ℤ K)) => acc.bind (treeStep big null pf)) (some st)

end

instance countNeZero (c m : ℕ) [NeZero c] : NeZero (c * (m + 1)) := ⟨Nat.mul_ne_zero (NeZero.ne c) (by omega)⟩

instance rowsNeZero (c d : ℕ) [NeZero c] : NeZero (c ^ d) := ⟨pow_ne_zero _ (NeZero.ne c)⟩

instance cellsNeZero (a b : ℕ) [NeZero a] [NeZero b] : NeZero (a * b) := ⟨Nat.mul_ne_zero (NeZero.ne a) (NeZero.ne b)⟩

/-- `TreeRecombination.reduce` for `tree_reduction_factor = c ≥ 2` (`prepareTree` covers the other values) and a computed number `depth` of
rounds; `/repo/coreax/solvers/recombination.py:503-567`. There are `c * (m + 1)` clusters of `c ^ (depth - 1)` entries. -/
def treeReduceAt {K X : Type*} [Field K] [LinearOrder K] {n m : ℕ} [NeZero n] (big : K) (null : NullResolver K)
    (test : X → Fin m → K) (mode : RecombMode) (c depth : ℕ) [NeZero c] (d : Data n X K) : Option ((k : ℕ) × Data k ℤ K) :=
  (treeLoop (rows := c ^ (depth - 1)) (count := c * (m + 1)) big null (fun t => test (d.data t)) depth
    (treeInit _ (d.normalizePZ big).weights)).map (fun st => coresubsetNodes n (m + 1) st.weights st.data mode)

/-- The same with the depth from an exact logarithm (`Model/FloatLog.lean` has the computed one); `/repo/coreax/solvers/recombination.py:503-588`. -/
def treeReduce {K X : Type*} [Field K] [LinearOrder K] {n m : ℕ} [NeZero n] (big : K) (null : NullResolver K)
    (test : X → Fin m → K) (mode : RecombMode) (c : ℕ) [NeZero c] (d : Data n X K) : Option ((k : ℕ) × Data k ℤ K) :=
  treeReduceAt big null test mode c (treeDepth n (m + 1) c) d

end Coreax
