import Verif.Model.MapReduce
import Verif.Model.Thinning
import Verif.Model.Recombination
import Mathlib.Analysis.SpecialFunctions.Log.Base
import Mathlib.Algebra.Order.Floor.Ring

/-!
# The integers that the solvers compute from floating-point logarithms

Four places round a logarithm in double precision to an integer: the number of halvings of kernel thinning, the level of Compress++, the number
of leaves of `_jit_tree` and the depth of tree recombination.  The floating-point operations are parameters; the conversion of a Python integer to a
double is exact below `2 ** 53` and not modelled.
-/

namespace Coreax

/-- The floating-point operations: subtraction, division, `math.log2` and the natural logarithm inside `math.log`;
`/repo/coreax/solvers/coresubset.py:1377, 1768`, `/repo/coreax/solvers/composite.py:223`, `/repo/coreax/solvers/recombination.py:586` (external). -/
structure LogOps where
  sub : ℝ → ℝ → ℝ
  div : ℝ → ℝ → ℝ
  log2 : ℝ → ℝ
  ln : ℝ → ℝ

/-- `math.floor(math.log2(n) - math.log2(self.coreset_size))`; `/repo/coreax/solvers/coresubset.py:1377`. -/
noncomputable def ktHalvings (o : LogOps) (n size : ℕ) : ℤ := ⌊o.sub (o.log2 n) (o.log2 size)⌋

/-- `math.floor(math.log(n, 4))`; `/repo/coreax/solvers/coresubset.py:1768`. `math.log(x, b)` is the quotient of two natural logarithms. -/
noncomputable def cppPower (o : LogOps) (n : ℕ) : ℤ := ⌊o.div (o.ln n) (o.ln 4)⌋

/-- `2 ** max(0, math.floor(math.log2((len(dataset) - 1) / _leaf_size)))`; `/repo/coreax/solvers/composite.py:222-223`, for at least two rows. -/
noncomputable def jitLeaves (o : LogOps) (n leaf : ℕ) : ℕ := 2 ^ (max 0 ⌊o.log2 (o.div ((n - 1 : ℕ) : ℝ) (halfLeaf leaf : ℝ))⌋).toNat

/-- `max(1, math.ceil(math.log(n / m, tree_reduction_factor)))`; `/repo/coreax/solvers/recombination.py:586`, for a factor of at least two. -/
noncomputable def treeDepthFl (o : LogOps) (n m c : ℕ) : ℕ := (max 1 ⌈o.div (o.ln (o.div (n : ℝ) (m : ℝ))) (o.ln (c : ℝ))⌉).toNat

/-- `TreeRecombination.reduce` with the computed depth; `/repo/coreax/solvers/recombination.py:503-588`. -/
noncomputable def treeReduceFl {K X : Type*} [Field K] [LinearOrder K] {n m : ℕ} [NeZero n] (o : LogOps) (big : K) (null : NullResolver K)
    (test : X → Fin m → K) (mode : RecombMode) (c : ℕ) [NeZero c] (d : Data n X K) : Option ((k : ℕ) × Data k ℤ K) :=
  treeReduceAt big null test mode c (treeDepthFl o n (m + 1) c) d

end Coreax
