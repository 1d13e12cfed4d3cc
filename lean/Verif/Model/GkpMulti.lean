import Verif.Model.Batch

/-!
# Model of `GreedyKernelPoints` on data with several responses

`/repo/coreax/solvers/coresubset.py:1032-1105, 1192-1321`.  `SupervisedData` accepts responses of any width
(`/repo/coreax/data.py:216-262`); the responses are padded at any width (`coresubset.py:1248`).  The width enters only through
the loss, where it meets the loss batch in two broadcasts.  The annotation `responses: Shaped[Array, " n+1 1"]` is not checked
at run time.  `Verif/Model/Batch.lean` has the case of scalar responses; `C76_single` shows that the two agree there.
-/

namespace Coreax

open Matrix

/-- The size of a broadcast axis (`numpy` rules): equal sizes, or one of the two is 1; otherwise there is none (`TypeError` from
`lax.mul`, `lax.sub`). -/
def broadcastDim (a b : ℕ) : Option ℕ :=
  if a = b then some a else if a = 1 then some b else if b = 1 then some a else none

/-- Reading position `j` of a broadcast axis: an axis of size 1 is repeated (`d` is never read). -/
def broadcastGet {α : Type*} {a : ℕ} (d : α) (f : Fin a → α) (j : ℕ) : α :=
  if h : j < a then f ⟨j, h⟩ else if h : a = 1 then f ⟨0, by omega⟩ else d

section
variable {K : Type*} [Field K] [LinearOrder K]

/-- `_greedy_kernel_points_loss`; `/repo/coreax/solvers/coresubset.py:1032-1105`, for `q + 1` responses.
`coreset_cross_gramians * coefficients` (line 1098) broadcasts the axis of the loss batch (size `l`) against the axis of the
responses (size `q + 1`); line 1104 subtracts `responses[loss_batch, 0]`, of size `l`. -/
def gkpLossMulti (solve : RlsSolver K) {n size p l q : ℕ} (padG : Fin (n + 1) → Fin (n + 1) → K)
    (padY : Fin (n + 1) → Fin (q + 1) → K) (reg : K) (diag : Fin size → K) (lossBatch : Fin l → ℤ)
    (cand : Fin p → Fin size → ℤ) : Except Err (Fin p → Ext K) :=
  let row (i : ℤ) : Fin (n + 1) := gatherIdx (n + 1) i
  match solveStack solve (fun b => Matrix.of fun t u => padG (row (cand b t)) (row (cand b u))) reg
      (fun b => Matrix.of fun t j => padY (row (cand b t)) j) (Matrix.diagonal diag) with
  | .error e => .error e
  | .ok coef =>
    match broadcastDim l (q + 1) with
    | none => .error .typeError
    | some w =>
      match broadcastDim w l with
      | none => .error .typeError
      | some v =>
        .ok fun b =>
          let pred (j : Fin w) : Ext K := Ext.sum fun t =>
            broadcastGet Ext.nan (fun i : Fin l => Ext.fin (padG (row (cand b t)) (row (lossBatch i)))) j *
              broadcastGet Ext.nan (coef b t) j
          Ext.sum fun j : Fin v =>
            (broadcastGet Ext.nan pred j - broadcastGet Ext.nan (fun i : Fin l => Ext.fin (2 * padY (row (lossBatch i)) 0)) j) *
              broadcastGet Ext.nan pred j

/-- `_greedy_body` of `GreedyKernelPoints.refine`; `/repo/coreax/solvers/coresubset.py:1258-1304`. -/
def gkpBodyMulti (solve : RlsSolver K) {n size p l q : ℕ} [NeZero p] (padG : Fin (n + 1) → Fin (n + 1) → K)
    (padY : Fin (n + 1) → Fin (q + 1) → K) (reg : K) (unique : Bool) (batches : Fin size → Fin p → ℤ)
    (lossBatches : Fin size → Fin l → ℤ) (i : Fin size) (s : Except Err (GkpState size p K)) :
    Except Err (GkpState size p K) :=
  match s with
  | .error e => .error e
  | .ok s =>
    let diag := Function.update s.diag i 1
    match gkpLossMulti solve padG padY reg diag (lossBatches i) s.cand with
    | .error e => .error e
    | .ok loss =>
      let u := gkpUpdate unique batches i s.idx s.cand loss
      .ok ⟨u.2, diag, u.1⟩

/-- The loop of `GreedyKernelPoints.refine`; `/repo/coreax/solvers/coresubset.py:1306-1316`. -/
def gkpRunMulti (solve : RlsSolver K) {n size l q : ℕ} (padG : Fin (n + 1) → Fin (n + 1) → K)
    (padY : Fin (n + 1) → Fin (q + 1) → K) (reg : K) (unique : Bool) {p : ℕ} (batches : Fin size → Fin p → ℤ)
    (lossBatches : Fin size → Fin l → ℤ) (init : Fin size → ℤ) : Except Err (Fin size → ℤ) :=
  if hp : p = 0 then .error .valueError
  else
    haveI : NeZero p := ⟨hp⟩
    match forLoop size (gkpBodyMulti solve padG padY reg unique batches lossBatches) (.ok (gkpStart n batches init)) with
    | .error e => .error e
    | .ok s => .ok s.idx

/-- `padded_responses`; `/repo/coreax/solvers/coresubset.py:1245-1248`: a row of zeros of the width of the responses. -/
def padRows {n q : ℕ} (y : Fin n → Fin (q + 1) → K) : Fin (n + 1) → Fin (q + 1) → K := Fin.snoc y (fun _ => 0)

/-- `GreedyKernelPoints.refine`; `/repo/coreax/solvers/coresubset.py:1192-1321`, for `q + 1` responses; see `gkpRefine`. -/
def gkpRefineMulti {X : Type*} (solve : RlsSolver K) (k : X → X → K) {n q : ℕ} (x : Fin n → X) (y : Fin n → Fin (q + 1) → K)
    (reg : K) (unique : Bool) (candBatch lossBatch : Option ℤ) (size : ℕ) (permC permL : Fin size → Fin n → ℤ) {m0 : ℕ}
    (c : Fin m0 → ℤ) (state : Option (Fin (n + 1) → Fin (n + 1) → K)) :
    Except Err (Data size ℤ K × (Fin (n + 1) → Fin (n + 1) → K)) :=
  match gkpCandidates n candBatch permC (gkpInitial size c) with
  | .error e => .error e
  | .ok batches =>
    match sampleBatchIndices (n : ℤ) (resolveBatch n lossBatch) permL with
    | .error e => .error e
    | .ok lossBatches =>
      match gkpRunMulti solve (state.getD (padGram k x)) (padRows y) reg unique batches.2 lossBatches (gkpInitial size c) with
      | .error e => .error e
      | .ok f => .ok (⟨f, fun _ => 1⟩, state.getD (padGram k x))

/-- `GreedyKernelPoints.reduce`; `/repo/coreax/solvers/coresubset.py:1183-1190`, for `q + 1` responses. -/
def gkpReduceMulti {X : Type*} (solve : RlsSolver K) (k : X → X → K) {n q : ℕ} (x : Fin n → X) (y : Fin n → Fin (q + 1) → K)
    (reg : K) (unique : Bool) (candBatch lossBatch : Option ℤ) (size : ℕ) (permC permL : Fin size → Fin n → ℤ)
    (state : Option (Fin (n + 1) → Fin (n + 1) → K)) :
    Except Err (Data size ℤ K × (Fin (n + 1) → Fin (n + 1) → K)) :=
  match (initialCoresubset (-1) size n : Except Err (Data size ℤ K)) with
  | .error e => .error e
  | .ok c => gkpRefineMulti solve k x y reg unique candBatch lossBatch size permC permL c.data state

end

end Coreax
