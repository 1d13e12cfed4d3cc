import Verif.Model.SteinSolver
import Verif.Model.Thinning
import Verif.Model.Recombination
import Verif.Model.Metrics

/-!
# Model of solvers and metrics that unpack the leaves of a dataset

Other files model these functions for unsupervised data.  Here a dataset may carry supervision, and the line `x, w = jtu.tree_leaves(dataset)` is
modelled as it stands.
-/

namespace Coreax

/-- The array leaves of a dataset. -/
inductive Leaf (n : ℕ) (X Y K : Type*)
  | points (x : Fin n → X)
  | weights (w : Fin n → K)
  | supervision (y : Fin n → Y)

/-- `jtu.tree_leaves(dataset)`: one leaf per field, those of `Data` first; `/repo/coreax/data.py:145-146, 236`. -/
def DSet.leaves {n : ℕ} {X Y K : Type*} (d : DSet n X Y K) : List (Leaf n X Y K) :=
  [.points d.data, .weights d.weights] ++ match d.sup with
    | none => []
    | some y => [.supervision y]

/-- `a, b = leaves` followed by the use of `a` as points and `b` as weights: a list of another length is a `ValueError`. -/
def unpackTwo {n : ℕ} {X Y K : Type*} : List (Leaf n X Y K) → Except Err (Data n X K)
  | [.points x, .weights w] => .ok ⟨x, w⟩
  | _ => .error .valueError

section
variable {X Y K : Type} [Zero X] [Field K] [LinearOrder K] {n : ℕ} [NeZero n] {m : ℕ}

/-- `KernelHerding.refine`; `/repo/coreax/solvers/coresubset.py:327-362` with `_greedy_kernel_selection` (line 164 unpacks). -/
def herdingRefineS (big : K) (k : X → X → K) (prob : Option (Draw n K)) (unique : Bool) (bs : PyTree (Option ℤ)) (size : ℕ)
    (pre : DSet n X Y K) (c : Data m ℤ K) (state : Option (List K)) (ord : List (Fin (m + (size - m)))) :
    Except Err (Data size ℤ K × List K) :=
  match cachedRowMean big k pre.toData bs state with
  | .error e => .error e
  | .ok rm =>
    match unpackTwo pre.leaves with
    | .error e => .error e
    | .ok d =>
      match greedySelection big k d bs unique (herdingSelect prob (asVec n rm)) size c ord with
      | .error e => .error e
      | .ok r => .ok (r, rm)

/-- `KernelHerding.reduce`; `/repo/coreax/solvers/coresubset.py:290-297`. -/
def herdingReduceS (big : K) (k : X → X → K) (prob : Option (Draw n K)) (unique : Bool) (bs : PyTree (Option ℤ)) (size : ℕ)
    (pre : DSet n X Y K) (state : Option (List K)) (ord : List (Fin (size + (size - size)))) :
    Except Err (Data size ℤ K × List K) :=
  match (initialCoresubset 0 size n : Except Err (Data size ℤ K)) with
  | .error e => .error e
  | .ok c => herdingRefineS big k prob unique bs size pre c state ord

/-- `CaratheodoryRecombination.reduce`; `/repo/coreax/solvers/recombination.py:180-275` (line 184 unpacks). The inner option is that of `caraReduce`. -/
def caraReduceS {q : ℕ} (big : K) (null : NullResolver K) (test : X → Fin q → K) (mode : RecombMode) (d : DSet n X Y K) :
    Except Err (Option ((k : ℕ) × Data k ℤ K)) :=
  match unpackTwo d.leaves with
  | .error e => .error e
  | .ok d => .ok (caraReduce big null test mode d)

/-- `TreeRecombination.reduce`; `/repo/coreax/solvers/recombination.py:503-567` (line 507 unpacks). -/
def treeReduceS {q : ℕ} (big : K) (null : NullResolver K) (test : X → Fin q → K) (mode : RecombMode) (c : ℕ) [NeZero c] (d : DSet n X Y K) :
    Except Err (Option ((k : ℕ) × Data k ℤ K)) :=
  match unpackTwo d.leaves with
  | .error e => .error e
  | .ok d => .ok (treeReduce big null test mode c d)

end

section
variable {Y : Type} {d n m : ℕ} [NeZero n]

/-- `SteinThinning.refine`; `/repo/coreax/solvers/coresubset.py:505-551` (line 505 unpacks). -/
noncomputable def steinThinningRefineS (big : ℝ) (kernel : KExpr d) (sm : Option (Vec d → Vec d)) (unique : Bool) (o : SteinOptions n)
    (bs : PyTree (Option ℤ)) (size : ℕ) (pre : DSet n (Vec d) Y ℝ) (c : Data m ℤ ℝ) (ord : List (Fin (m + (size - m)))) :
    Except Err (Data size ℤ ℝ) :=
  match unpackTwo pre.leaves with
  | .error e => .error e
  | .ok x => steinThinningRefine big kernel sm unique o bs size x c ord

/-- `SteinThinning.reduce`; `/repo/coreax/solvers/coresubset.py:474-479`. -/
noncomputable def steinThinningReduceS (big : ℝ) (kernel : KExpr d) (sm : Option (Vec d → Vec d)) (unique : Bool) (o : SteinOptions n)
    (bs : PyTree (Option ℤ)) (size : ℕ) (pre : DSet n (Vec d) Y ℝ) (ord : List (Fin (size + (size - size)))) :
    Except Err (Data size ℤ ℝ) :=
  match (initialCoresubset 0 size n : Except Err (Data size ℤ ℝ)) with
  | .error e => .error e
  | .ok c => steinThinningRefineS big kernel sm unique o bs size pre c ord

/-- `KSD.compute`; `/repo/coreax/metrics.py:247-278` (line 249 unpacks the reference data; the comparison data are not unpacked). The density
estimate and Laplace terms are functions of the unpacked data and the converted kernel. -/
noncomputable def ksdComputeS (big : ℝ) (kernel : KExpr d) (sm : Option (Vec d → Vec d)) {q : ℕ} (ref : DSet n (Vec d) Y ℝ) (y : DSet q (Vec d) Y ℝ)
    (bs : PyTree (Option ℤ)) (logp lap : Data n (Vec d) ℝ → KExpr d → Option (Fin q → ℝ)) : Except Err ℝ :=
  match unpackTwo ref.leaves with
  | .error e => .error e
  | .ok x =>
    match convertStein big x.data kernel sm with
    | .error e => .error e
    | .ok kp => ksdCompute big kp.sem.compute y.toData bs (logp x kp) (lap x kp)

/-- `KernelThinning.reduce`; `/repo/coreax/solvers/coresubset.py:1354-1385` (the last step, `kt_refine`, is herding). -/
noncomputable def ktReduceS {X : Type} [Zero X] {size : ℕ} [NeZero size] (big : ℝ) (k sk : X → X → ℝ) (c : Ext ℝ)
    (u : ℕ → ℝ) (choice : Choice n size ℝ) (ord : List (Fin (size + (size - size)))) (depth : ℕ) (dataset : DSet n X Y ℝ) :
    Except Err (Data size ℤ ℝ) :=
  if size > n then .error .valueError
  else
    let partition := ktPartition (size := size) Real.sqrt sk c u dataset.data depth
    match (randomSample false true ⟨n, dataset⟩ choice) with
    | .error e => .error e
    | .ok baseline =>
      match ktChoose big k dataset.toData
          (partition ++ [fun t : Fin size => if h : (t : ℕ) < baseline.m then baseline.indices.data ⟨t, h⟩ else 0]) with
      | .error e => .error e
      | .ok best =>
        dropState (herdingRefineS big k none true (.leaf none) size dataset ⟨best, fun _ => 1⟩ none ord)

end

end Coreax
