import Verif.Model.Coreset
import Verif.Model.Greedy

/-!
# Model of the random coresubset solvers

`RandomSample` and `RPCholesky` of `/repo/coreax/solvers/coresubset.py`, with the size check of
`/repo/coreax/solvers/base.py`.  Random draws (`jr.choice` with a key) are functions given as parameters; what is assumed
of them is stated in `ChoiceContract` and `PivotContract`.
-/

namespace Coreax

/-- `ExplicitSizeSolver.__check_init__`; `/repo/coreax/solvers/base.py:106-111`. -/
def explicitSize (size : ℤ) : Except Err ℕ :=
  if size ≤ 0 then .error .valueError else .ok size.toNat

/-! ### Random sampling -/

/-- The successful calls of `jr.choice(key, n, (size,), p=p, replace=replace)` for a fixed key. -/
abbrev Choice (n size : ℕ) (K : Type*) := Option (Fin n → K) → Bool → Fin size → ℤ

/-- The errors of `jr.choice`: nothing to draw from, or more draws than elements without replacement. -/
def choiceFails (n size : ℕ) (replace : Bool) : Bool := n = 0 || (!replace && n < size)

/-- What is assumed of `jr.choice` (trusted): results are indices below `n`; without replacement they are distinct; with
non-negative weights `p`, only elements of positive weight are drawn provided there are any (with replacement) or enough
of them (without). -/
structure ChoiceContract {n size : ℕ} {K : Type*} [Field K] [LinearOrder K] (choice : Choice n size K) : Prop where
  range : ∀ p r, choiceFails n size r = false → ∀ t, ∃ j : Fin n, choice p r t = j
  distinct : ∀ p, choiceFails n size false = false → Function.Injective (choice p false)
  support : ∀ p r, (∀ j, 0 ≤ p j) → (if r then 1 else size) ≤ (Finset.univ.filter (fun j => 0 < p j)).card →
    ∀ (t : Fin size) (j : Fin n), choice (some p) r t = j → 0 < p j

section
variable {X Y K : Type*} [Field K] [LinearOrder K]

/-- `RandomSample.reduce`; `/repo/coreax/solvers/coresubset.py:95-112`. Both the `ValueError` re-raised with another
message and the original one are `valueError`. -/
def randomSample {size : ℕ} (weighted unique : Bool) (dataset : (n : ℕ) × DSet n X Y K)
    (choice : Choice dataset.1 size K) : Except Err (Coresubset X Y K) :=
  let selectionWeights := if weighted then some dataset.2.weights else none
  if choiceFails dataset.1 size (!unique) then .error .valueError
  else
    let randomIndices := choice selectionWeights (!unique)
    Coresubset.init (.data size ⟨randomIndices, fun _ => 1⟩) (.dataset dataset.1 dataset.2)

end

/-! ### Randomly pivoted Cholesky -/

namespace Ext

/-- `jnp.sqrt`, with the square root of non-negative numbers given: NaN for negative numbers. -/
def sqrt {K : Type*} [Zero K] [LinearOrder K] (root : K → K) : Ext K → Ext K
  | nan => nan
  | ninf => nan
  | fin x => if x < 0 then nan else fin (root x)
  | pinf => pinf

/-- A sum of floats. -/
def sum {K : Type*} [Add K] [Zero K] {m : ℕ} (f : Fin m → Ext K) : Ext K :=
  (List.ofFn f).foldl (· + ·) (fin 0)

end Ext

/-- The state of the loop: `(residual_diagonal, approximation_matrix, coreset_indices)`. -/
structure RPCState (n size : ℕ) (K : Type*) where
  residual : Fin n → Ext K
  approx : Fin n → Fin size → Ext K
  idx : Fin size → ℤ

/-- The draw of a pivot: iteration (it determines the key) and probabilities ↦ index. -/
abbrev PivotDraw (n : ℕ) (K : Type*) := ℕ → (Fin n → Ext K) → ℤ

/-- What is assumed of `jr.choice(key, n, (), p=p, replace=False)` (trusted): if all weights are non-negative numbers and
some weight is positive, an element of positive weight is drawn. (The weights need not sum to one.) -/
def PivotContract {n : ℕ} {K : Type*} [Field K] [LinearOrder K] (draw : PivotDraw n K) : Prop :=
  ∀ i p, (∀ j, ∃ v, 0 ≤ v ∧ p j = Ext.fin v) → (∃ j v, 0 < v ∧ p j = Ext.fin v) →
    ∃ j v, draw i p = (j : Fin n) ∧ 0 < v ∧ p j = Ext.fin v

section
variable {X K : Type*} [Field K] [LinearOrder K] {n : ℕ} [NeZero n] {size : ℕ}

/-- `available_mask / sum(available_mask)`; `/repo/coreax/solvers/coresubset.py:630-634`.  All the writes of the scatter
are `False`, so their order is irrelevant; the mask is true where no valid index points. -/
def uniformProbs (idx : Fin size → ℤ) : Fin n → Ext K :=
  let mask : Fin n → Bool := fun j => !decide (∃ t, scatterIdx n (idx t) = some j)
  fun j => Ext.fin (if mask j then 1 else 0) /
    Ext.fin (((Finset.univ.filter (fun j => mask j = true)).card : ℕ) : K)

/-- `valid_residuals`; lines 632-639. -/
def validResiduals (s : RPCState n size K) : Fin n → Ext K :=
  if (∀ j, s.residual j = Ext.fin 0) ∨ (∃ j, s.residual j = Ext.nan) then uniformProbs s.idx else s.residual

/-- The column `g`; lines 645-649. -/
def pivotColumn (k : X → X → K) (x : Fin n → X) (approx : Fin n → Fin size → Ext K) (pivot : ℤ) : Fin n → Ext K :=
  fun j => Ext.fin (k (x j) (x (gatherIdx n pivot))) -
    Ext.sum (fun t => approx j t * approx (gatherIdx n pivot) t)

/-- `_greedy_body` of `RPCholesky.reduce`; lines 618-667. -/
def rpcBody (root : K → K) (k : X → X → K) (x : Fin n → X) (unique : Bool) (draw : PivotDraw n K)
    (i : Fin size) (s : RPCState n size K) : RPCState n size K :=
  let pivot := draw i (validResiduals s)
  let g := pivotColumn k x s.approx pivot
  let column : Fin n → Ext K := fun j => g j / Ext.sqrt root (g (gatherIdx n pivot))
  let residual : Fin n → Ext K := fun j => Ext.max0 (s.residual j - column j * column j)
  { residual := if unique then setAt residual pivot (Ext.fin 0) else residual
    approx := fun j => Function.update (s.approx j) i (column j)
    idx := Function.update s.idx i pivot }

/-- The diagonal that the loop starts from: from the state if given; lines 607-610. -/
def rpcDiagonal (k : X → X → K) (x : Fin n → X) : Option (Fin n → Ext K) → Fin n → Ext K
  | none => fun j => Ext.fin (k (x j) (x j))
  | some d => d

/-- The loop of `RPCholesky.reduce`; lines 669-676. -/
def rpcLoop (root : K → K) (k : X → X → K) (x : Fin n → X) (unique : Bool) (draw : PivotDraw n K) (size : ℕ)
    (state : Option (Fin n → Ext K)) (indices : Fin size → ℤ) : RPCState n size K :=
  forLoop size (rpcBody root k x unique draw) ⟨rpcDiagonal k x state, fun _ _ => Ext.fin 0, indices⟩

/-- `RPCholesky.reduce`; `/repo/coreax/solvers/coresubset.py:583-682`.  Result: the indices with unit weights
(`Coresubset.build`, which cannot fail here) and the final residual diagonal as solver state.  The dataset enters through
its data array only. -/
def rpcReduce (root : K → K) (k : X → X → K) (x : Fin n → X) (unique : Bool) (draw : PivotDraw n K) (size : ℕ)
    (state : Option (Fin n → Ext K)) : Except Err (Data size ℤ K × (Fin n → Ext K)) :=
  match (initialCoresubset ((n : ℤ) + 1) size n : Except Err (Data size ℤ K)) with
  | .error e => .error e
  | .ok c =>
    let s := rpcLoop root k x unique draw size state c.data
    .ok (⟨s.idx, fun _ => 1⟩, s.residual)

end

end Coreax
