import Verif.Model.ExtKernel
import Verif.Model.Batch

/-!
# Greedy kernel points with kernels and responses whose values need not be numbers

`GreedyKernelPoints` as in `Model/Batch.lean`, with kernel values and responses in `Ext` (see `Model/ExtKernel.lean`).
-/

namespace Coreax

open Matrix

section
variable {K : Type*} [Field K] [LinearOrder K]

/-- A regularised least-squares solver on floats. -/
abbrev RlsSolverX (K : Type*) := ∀ {n q : ℕ}, Matrix (Fin n) (Fin n) (Ext K) → K → Matrix (Fin n) (Fin q) (Ext K) →
  Matrix (Fin n) (Fin n) K → Except Err (Matrix (Fin n) (Fin q) (Ext K))

/-- `_greedy_kernel_points_loss` with `solve_stack`; `/repo/coreax/solvers/coresubset.py:1032-1105`, `/repo/coreax/least_squares.py:99-122`;
as `gkpLoss`. -/
def gkpLossX (solve : RlsSolverX K) {n size p l : ℕ} (padG : Fin (n + 1) → Fin (n + 1) → Ext K) (padY : Fin (n + 1) → Ext K) (reg : K)
    (diag : Fin size → K) (lossBatch : Fin l → ℤ) (cand : Fin p → Fin size → ℤ) : Except Err (Fin p → Ext K) :=
  let row (i : ℤ) : Fin (n + 1) := gatherIdx (n + 1) i
  match collect (fun b => solve (Matrix.of fun t u => padG (row (cand b t)) (row (cand b u))) |reg|
      (Matrix.of fun t (_ : Fin 1) => padY (row (cand b t))) (Matrix.diagonal diag)) with
  | .error e => .error e
  | .ok coef =>
    .ok fun b =>
      let pred (j : Fin l) : Ext K := Ext.sum fun t => padG (row (cand b t)) (row (lossBatch j)) * coef b t 0
      Ext.sum fun j => (pred j - Ext.fin 2 * padY (row (lossBatch j))) * pred j

/-- `_greedy_body` of `GreedyKernelPoints.refine`; `/repo/coreax/solvers/coresubset.py:1258-1304`. -/
def gkpBodyX (solve : RlsSolverX K) {n size p l : ℕ} [NeZero p] (padG : Fin (n + 1) → Fin (n + 1) → Ext K) (padY : Fin (n + 1) → Ext K)
    (reg : K) (unique : Bool) (batches : Fin size → Fin p → ℤ) (lossBatches : Fin size → Fin l → ℤ) (i : Fin size)
    (s : Except Err (GkpState size p K)) : Except Err (GkpState size p K) :=
  match s with
  | .error e => .error e
  | .ok s =>
    let diag := Function.update s.diag i 1
    match gkpLossX solve padG padY reg diag (lossBatches i) s.cand with
    | .error e => .error e
    | .ok loss =>
      let u := gkpUpdate unique batches i s.idx s.cand loss
      .ok ⟨u.2, diag, u.1⟩

/-- `padded_responses`; `/repo/coreax/solvers/coresubset.py:1245-1248`. -/
def padVecX {n : ℕ} (y : Fin n → Ext K) : Fin (n + 1) → Ext K := Fin.snoc y (Ext.fin 0)

/-- `padded_feature_gramian`; `/repo/coreax/solvers/coresubset.py:1250-1254`. -/
def padGramX {X : Type*} {n : ℕ} (k : X → X → Ext K) (x : Fin n → X) : Fin (n + 1) → Fin (n + 1) → Ext K :=
  Fin.snoc (fun i => Fin.snoc (fun j => k (x i) (x j)) (Ext.fin 0)) (fun _ => Ext.fin 0)

/-- The loop of `GreedyKernelPoints.refine`; `/repo/coreax/solvers/coresubset.py:1306-1316`. -/
def gkpRunX (solve : RlsSolverX K) {n size l : ℕ} (padG : Fin (n + 1) → Fin (n + 1) → Ext K) (padY : Fin (n + 1) → Ext K) (reg : K)
    (unique : Bool) {p : ℕ} (batches : Fin size → Fin p → ℤ) (lossBatches : Fin size → Fin l → ℤ) (init : Fin size → ℤ) :
    Except Err (Fin size → ℤ) :=
  if hp : p = 0 then .error .valueError
  else
    haveI : NeZero p := ⟨hp⟩
    match forLoop size (gkpBodyX solve padG padY reg unique batches lossBatches) (.ok (gkpStart n batches init)) with
    | .error e => .error e
    | .ok s => .ok s.idx

/-- `GreedyKernelPoints.refine` without a solver state; `/repo/coreax/solvers/coresubset.py:1192-1321`; as `gkpRefine`. -/
def gkpRefineX {X : Type*} (solve : RlsSolverX K) (k : X → X → Ext K) {n : ℕ} (x : Fin n → X) (y : Fin n → Ext K) (reg : K)
    (unique : Bool) (candBatch lossBatch : Option ℤ) (size : ℕ) (permC permL : Fin size → Fin n → ℤ) {m0 : ℕ}
    (c : Fin m0 → ℤ) : Except Err (Data size ℤ K) :=
  match gkpCandidates n candBatch permC (gkpInitial size c) with
  | .error e => .error e
  | .ok batches =>
    match sampleBatchIndices (n : ℤ) (resolveBatch n lossBatch) permL with
    | .error e => .error e
    | .ok lossBatches =>
      match gkpRunX solve (padGramX k x) (padVecX y) reg unique batches.2 lossBatches (gkpInitial size c) with
      | .error e => .error e
      | .ok f => .ok ⟨f, fun _ => 1⟩

/-- `GreedyKernelPoints.reduce`; `/repo/coreax/solvers/coresubset.py:1183-1190`. -/
def gkpReduceX {X : Type*} (solve : RlsSolverX K) (k : X → X → Ext K) {n : ℕ} (x : Fin n → X) (y : Fin n → Ext K) (reg : K)
    (unique : Bool) (candBatch lossBatch : Option ℤ) (size : ℕ) (permC permL : Fin size → Fin n → ℤ) : Except Err (Data size ℤ K) :=
  match (initialCoresubset (-1) size n : Except Err (Data size ℤ K)) with
  | .error e => .error e
  | .ok c => gkpRefineX solve k x y reg unique candBatch lossBatch size permC permL c.data

end

end Coreax
