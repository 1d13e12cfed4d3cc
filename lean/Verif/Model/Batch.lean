import Verif.Model.LeastSquares

/-!
# Model of `sample_batch_indices` and of `GreedyKernelPoints`

`/repo/coreax/util.py:232-257` and `/repo/coreax/solvers/coresubset.py:756-1321`.
-/

namespace Coreax

open Matrix

/-- `sample_batch_indices`; `/repo/coreax/util.py:232-257`: the first `batch_size` entries of each of `num` permutations of
`0 … max_index - 1` (`perm`, one per key; external). -/
def sampleBatchIndices {num : ℕ} (maxIndex batchSize : ℤ) (perm : Fin num → Fin maxIndex.toNat → ℤ) :
    Except Err (Fin num → Fin batchSize.toNat → ℤ) :=
  if h : maxIndex < batchSize then .error .valueError
  else if batchSize < 0 then .error .valueError
  else .ok fun i t => perm i ⟨t, by have := t.2; omega⟩

/-- What is assumed of `jr.permutation` (trusted). -/
def PermContract {num n : ℕ} (perm : Fin num → Fin n → ℤ) : Prop :=
  ∀ i, ∃ e : Fin n → Fin n, Function.Bijective e ∧ ∀ t, perm i t = (e t : ℤ)

/-- `jnp.argmin`: the first NaN if there is one, otherwise the first position of the least value. -/
def argminNan {K : Type*} [LinearOrder K] {p : ℕ} (f : Fin p → Ext K) : ℤ :=
  match (List.finRange p).find? (fun b => (f b).isNan) with
  | some b => (b : ℤ)
  | none => match (List.finRange p).argmin (fun b => (f b).keyMin) with
    | some b => (b : ℤ)
    | none => 0

section
variable {K : Type*} [Field K] [LinearOrder K]

/-- The batch size actually used: everything if none is given or if it is larger than the data; `/repo/coreax/solvers/coresubset.py:841-842, 946-947`. -/
def resolveBatch (n : ℕ) : Option ℤ → ℤ
  | none => n
  | some b => if b > n then n else b

/-- `initial_coreset_indices`; `/repo/coreax/solvers/coresubset.py:816-833`: padded by -1 or clipped. -/
def gkpInitial {m0 : ℕ} (size : ℕ) (c : Fin m0 → ℤ) : Fin size → ℤ :=
  fun t => if h : (t : ℕ) < m0 then c ⟨t, h⟩ else -1

/-- `candidate_batch_indices`; `/repo/coreax/solvers/coresubset.py:840-879`: the current indices are appended as a column
unless all the data is searched. -/
def gkpCandidates {size : ℕ} (n : ℕ) (batch : Option ℤ) (perm : Fin size → Fin n → ℤ) (init : Fin size → ℤ) :
    Except Err ((p : ℕ) × (Fin size → Fin p → ℤ)) :=
  match sampleBatchIndices (n : ℤ) (resolveBatch n batch) perm with
  | .error e => .error e
  | .ok b =>
    if resolveBatch n batch < n then .ok ⟨(resolveBatch n batch).toNat + 1, fun i => Fin.snoc (b i) (init i)⟩
    else .ok ⟨(resolveBatch n batch).toNat, b⟩

/-- The loop state: coreset indices, diagonal of the "identity" matrix, candidate coresets. -/
structure GkpState (size p : ℕ) (K : Type*) where
  idx : Fin size → ℤ
  diag : Fin size → K
  cand : Fin p → Fin size → ℤ

/-- `_greedy_kernel_points_loss`; `/repo/coreax/solvers/coresubset.py:1032-1105`, for scalar responses (`padY` and `padG` are
padded with zeros at index `n`, which is where index -1 points). -/
def gkpLoss (solve : RlsSolver K) {n size p l : ℕ} (padG : Fin (n + 1) → Fin (n + 1) → K) (padY : Fin (n + 1) → K) (reg : K)
    (diag : Fin size → K) (lossBatch : Fin l → ℤ) (cand : Fin p → Fin size → ℤ) : Except Err (Fin p → Ext K) :=
  let row (i : ℤ) : Fin (n + 1) := gatherIdx (n + 1) i
  match solveStack solve (fun b => Matrix.of fun t u => padG (row (cand b t)) (row (cand b u))) reg
      (fun b => Matrix.of fun t (_ : Fin 1) => padY (row (cand b t))) (Matrix.diagonal diag) with
  | .error e => .error e
  | .ok coef =>
    .ok fun b =>
      let pred (j : Fin l) : Ext K := Ext.sum fun t => Ext.fin (padG (row (cand b t)) (row (lossBatch j))) * coef b t 0
      Ext.sum fun j => (pred j - Ext.fin (2 * padY (row (lossBatch j)))) * pred j

/-- The loss with infinity added at the indices that are already in the coreset at another position;
`/repo/coreax/solvers/coresubset.py:1006-1011`. -/
def gkpMasked {size p : ℕ} (unique : Bool) (i : Fin size) (idx : Fin size → ℤ) (cand : Fin p → Fin size → ℤ)
    (loss : Fin p → Ext K) : Fin p → Ext K :=
  if unique then fun b =>
    loss b + (if ∃ t, Function.update idx i (-1) t = cand b i then Ext.pinf else Ext.fin 0)
  else loss

/-- `_update_candidate_coresets_and_coreset_indices`; `/repo/coreax/solvers/coresubset.py:966-1029`, with `[NeZero p]` for the
gather of the chosen row. -/
def gkpUpdate {size p : ℕ} [NeZero p] (unique : Bool) (batches : Fin size → Fin p → ℤ) (i : Fin size)
    (idx : Fin size → ℤ) (cand : Fin p → Fin size → ℤ) (loss : Fin p → Ext K) : (Fin p → Fin size → ℤ) × (Fin size → ℤ) :=
  let chosen := cand (gatherIdx p (argminNan (gkpMasked unique i idx cand loss))) i
  (fun b t => if t = i then chosen
      else if (t : ℕ) = i + 1 then batches t b
      else cand b t,
    Function.update idx i chosen)

/-- `_greedy_body` of `GreedyKernelPoints.refine`; `/repo/coreax/solvers/coresubset.py:1258-1304`. -/
def gkpBody (solve : RlsSolver K) {n size p l : ℕ} [NeZero p] (padG : Fin (n + 1) → Fin (n + 1) → K) (padY : Fin (n + 1) → K)
    (reg : K) (unique : Bool) (batches : Fin size → Fin p → ℤ) (lossBatches : Fin size → Fin l → ℤ) (i : Fin size)
    (s : Except Err (GkpState size p K)) : Except Err (GkpState size p K) :=
  match s with
  | .error e => .error e
  | .ok s =>
    let diag := Function.update s.diag i 1
    match gkpLoss solve padG padY reg diag (lossBatches i) s.cand with
    | .error e => .error e
    | .ok loss =>
      let u := gkpUpdate unique batches i s.idx s.cand loss
      .ok ⟨u.2, diag, u.1⟩

/-- The initial loop state; `/repo/coreax/solvers/coresubset.py:926-939`: column 0 of the candidate coresets is the first
batch; the identity has a one where the initial index is not the padding. -/
def gkpStart {size p : ℕ} (n : ℕ) (batches : Fin size → Fin p → ℤ) (init : Fin size → ℤ) : GkpState size p K :=
  { idx := init
    diag := fun t => if ((gatherIdx (n + 1) (init t) : Fin (n + 1)) : ℕ) < n then 1 else 0
    cand := fun b t => if (t : ℕ) = 0 then batches t b else init t }

/-- `padded_responses` and `padded_feature_gramian`; `/repo/coreax/solvers/coresubset.py:1245-1256`. -/
def padVec {n : ℕ} (y : Fin n → K) : Fin (n + 1) → K := Fin.snoc y 0

/-- See `padVec`. -/
def padGram {X : Type*} {n : ℕ} (k : X → X → K) (x : Fin n → X) : Fin (n + 1) → Fin (n + 1) → K :=
  Fin.snoc (fun i => Fin.snoc (fun j => k (x i) (x j)) 0) (fun _ => 0)

/-- The loop of `GreedyKernelPoints.refine`; `/repo/coreax/solvers/coresubset.py:1306-1316` (`argmin` of an empty array raises
`ValueError`). -/
def gkpRun (solve : RlsSolver K) {n size l : ℕ} (padG : Fin (n + 1) → Fin (n + 1) → K) (padY : Fin (n + 1) → K) (reg : K)
    (unique : Bool) {p : ℕ} (batches : Fin size → Fin p → ℤ) (lossBatches : Fin size → Fin l → ℤ) (init : Fin size → ℤ) :
    Except Err (Fin size → ℤ) :=
  if hp : p = 0 then .error .valueError
  else
    haveI : NeZero p := ⟨hp⟩
    match forLoop size (gkpBody solve padG padY reg unique batches lossBatches) (.ok (gkpStart n batches init)) with
    | .error e => .error e
    | .ok s => .ok s.idx

/-- `GreedyKernelPoints.refine`; `/repo/coreax/solvers/coresubset.py:1192-1321`.  `solve` is the given least-squares solver or
the default one.  The result is the new indices (of unit weight) and the padded Gram matrix as solver state.  The dataset
enters through its points `x` and scalar responses `y`; `permC`, `permL` are the permutations drawn for candidate and loss
batches. -/
def gkpRefine {X : Type*} (solve : RlsSolver K) (k : X → X → K) {n : ℕ} (x : Fin n → X) (y : Fin n → K) (reg : K)
    (unique : Bool) (candBatch lossBatch : Option ℤ) (size : ℕ) (permC permL : Fin size → Fin n → ℤ) {m0 : ℕ}
    (c : Fin m0 → ℤ) (state : Option (Fin (n + 1) → Fin (n + 1) → K)) :
    Except Err (Data size ℤ K × (Fin (n + 1) → Fin (n + 1) → K)) :=
  match gkpCandidates n candBatch permC (gkpInitial size c) with
  | .error e => .error e
  | .ok batches =>
    match sampleBatchIndices (n : ℤ) (resolveBatch n lossBatch) permL with
    | .error e => .error e
    | .ok lossBatches =>
      match gkpRun solve (state.getD (padGram k x)) (padVec y) reg unique batches.2 lossBatches (gkpInitial size c) with
      | .error e => .error e
      | .ok f => .ok (⟨f, fun _ => 1⟩, state.getD (padGram k x))

/-- `GreedyKernelPoints.reduce`; `/repo/coreax/solvers/coresubset.py:1183-1190`. -/
def gkpReduce {X : Type*} (solve : RlsSolver K) (k : X → X → K) {n : ℕ} (x : Fin n → X) (y : Fin n → K) (reg : K)
    (unique : Bool) (candBatch lossBatch : Option ℤ) (size : ℕ) (permC permL : Fin size → Fin n → ℤ)
    (state : Option (Fin (n + 1) → Fin (n + 1) → K)) :
    Except Err (Data size ℤ K × (Fin (n + 1) → Fin (n + 1) → K)) :=
  match (initialCoresubset (-1) size n : Except Err (Data size ℤ K)) with
  | .error e => .error e
  | .ok c => gkpRefine solve k x y reg unique candBatch lossBatch size permC permL c.data state

end

end Coreax
