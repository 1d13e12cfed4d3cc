import Verif.Model.Mean

/-!
# Model of `coreax/coreset.py`
-/

namespace Coreax

/-- `Data` or `SupervisedData` (when `sup` is present) with `n` rows. -/
@[ext] structure DSet (n : ℕ) (X Y K : Type*) extends Data n X K where
  sup : Option (Fin n → Y)

/-- Indexing every leaf; `/repo/coreax/data.py:158-160`. -/
def DSet.getItem {n m : ℕ} [NeZero n] {X Y K : Type*} (d : DSet n X Y K) (key : Fin m → ℤ) : DSet m X Y K where
  data t := d.data (gatherIdx n (key t))
  weights t := d.weights (gatherIdx n (key t))
  sup := d.sup.map (fun s t => s (gatherIdx n (key t)))

/-- The Python values that can be passed for `pre_coreset_data` (lengths are dynamic). -/
inductive PreArg (X Y K : Type*)
  | array (n : ℕ) (x : Fin n → X)
  | pair (n : ℕ) (x : Fin n → X) (p : ℕ) (y : Fin p → Y)
  | dataset (n : ℕ) (d : DSet n X Y K)

/-- The Python values that can be passed for `indices` (rows `ℤ`) or `nodes` (rows `X`). -/
inductive NodeArg (R K : Type*)
  | array (m : ℕ) (r : Fin m → R)
  | data (m : ℕ) (d : Data m R K)

/-- A `Coresubset`: weighted indices and the original data; `/repo/coreax/coreset.py:200-250`. -/
structure Coresubset (X Y K : Type*) where
  m : ℕ
  n : ℕ
  indices : Data m ℤ K
  pre : DSet n X Y K

/-- A `PseudoCoreset`: nodes and the original data; `/repo/coreax/coreset.py:92-128`. -/
structure PseudoCoreset (X Y K : Type*) where
  m : ℕ
  n : ℕ
  nodes : Data m X K
  pre : DSet n X Y K

section
variable {X Y K : Type*}

/-- `Coresubset.__init__` (type checks, lines 236-250) then `AbstractCoreset.__check_init__` (lines 83-89);
`/repo/coreax/coreset.py`.  `len(points)` is the number of indices. -/
def Coresubset.init (indices : NodeArg ℤ K) (pre : PreArg X Y K) : Except Err (Coresubset X Y K) :=
  match indices with
  | .array _ _ => .error .typeError
  | .data m d => match pre with
    | .array _ _ => .error .typeError
    | .pair _ _ _ _ => .error .typeError
    | .dataset n p => if m > n then .error .valueError else .ok ⟨m, n, d, p⟩

/-- `as_data` on node arguments; `/repo/coreax/data.py:260-262`. -/
def NodeArg.asData {R : Type*} [One K] : NodeArg R K → NodeArg R K
  | .array m r => .data m ⟨r, fun _ => 1⟩
  | .data m d => .data m d

/-- Conversion of `pre_coreset_data` in `build`; `/repo/coreax/coreset.py:293-298` (and 173-178). -/
def PreArg.convert [One K] : PreArg X Y K → Except Err (PreArg X Y K)
  | .array n x => .ok (.dataset n ⟨⟨x, fun _ => 1⟩, none⟩)
  | .pair n x p y =>
    if h : p = n then .ok (.dataset n ⟨⟨x, fun _ => 1⟩, some (fun i => y (i.cast h.symm))⟩)
    else .error .valueError
  | .dataset n d => .ok (.dataset n d)

/-- `Coresubset.build`; `/repo/coreax/coreset.py:274-300`. -/
def Coresubset.build [One K] (indices : NodeArg ℤ K) (pre : PreArg X Y K) : Except Err (Coresubset X Y K) :=
  match pre.convert with
  | .error e => .error e
  | .ok p => Coresubset.init indices.asData p

/-- `Coresubset.points`; `/repo/coreax/coreset.py:302-307`: index the original data, then replace the weights by the
index weights. -/
def Coresubset.points (c : Coresubset X Y K) [NeZero c.n] : DSet c.m X Y K :=
  { c.pre.getItem c.indices.data with weights := c.indices.weights }

/-- `len(coreset)`; `/repo/coreax/coreset.py:79-81`. -/
def Coresubset.len (c : Coresubset X Y K) : ℕ := c.m

/-- A weights optimiser, as a function of the original data and the points. -/
abbrev WeightsSolver (X Y K : Type*) := ∀ {n m : ℕ}, DSet n X Y K → DSet m X Y K → (Fin m → K)

/-- `Coresubset.solve_weights`; `/repo/coreax/coreset.py:325-329`. -/
def Coresubset.solveWeights (c : Coresubset X Y K) [NeZero c.n] (solver : WeightsSolver X Y K) :
    Coresubset X Y K :=
  { c with indices := ⟨c.indices.data, solver c.pre c.points⟩ }

/-- `compute_metric`; `/repo/coreax/coreset.py:73-77`. -/
def Coresubset.computeMetric {R : Type*} (c : Coresubset X Y K) [NeZero c.n]
    (metric : ∀ {n m : ℕ}, DSet n X Y K → DSet m X Y K → R) : R := metric c.pre c.points

/-- `PseudoCoreset.__init__` and `__check_init__`; `/repo/coreax/coreset.py:114-128, 83-89`. -/
def PseudoCoreset.init (nodes : NodeArg X K) (pre : PreArg X Y K) : Except Err (PseudoCoreset X Y K) :=
  match nodes with
  | .array _ _ => .error .typeError
  | .data m d => match pre with
    | .array _ _ => .error .typeError
    | .pair _ _ _ _ => .error .typeError
    | .dataset n p => if m > n then .error .valueError else .ok ⟨m, n, d, p⟩

/-- `PseudoCoreset.build`; `/repo/coreax/coreset.py:152-180`. -/
def PseudoCoreset.build [One K] (nodes : NodeArg X K) (pre : PreArg X Y K) : Except Err (PseudoCoreset X Y K) :=
  match pre.convert with
  | .error e => .error e
  | .ok p => PseudoCoreset.init nodes.asData p

/-- `PseudoCoreset.solve_weights`; `/repo/coreax/coreset.py:193-197`. -/
def PseudoCoreset.solveWeights (c : PseudoCoreset X Y K) (solver : WeightsSolver X Y K) :
    PseudoCoreset X Y K :=
  { c with nodes := ⟨c.nodes.data, solver c.pre ⟨c.nodes, none⟩⟩ }

end

end Coreax
