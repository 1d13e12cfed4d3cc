import Verif.Model.Mean

/-!
# Model of the greedy coresubset solvers

`_initial_coresubset`, `_greedy_kernel_selection`, `KernelHerding`, `SteinThinning` of
`/repo/coreax/solvers/coresubset.py`.

The coresubset is represented by its original data `pre : Data n X K` (these solvers unpack exactly two leaves, line
164/505, so supervised data is rejected) and its weighted indices `Data m ℤ K`.
-/

namespace Coreax

variable {X K : Type*} [Zero X] [Field K] [LinearOrder K]

/-- `_initial_coresubset`; `/repo/coreax/solvers/coresubset.py:59-78`: `coreset_size` copies of `fill`, all with
weight zero; `ValueError` if that is longer than the dataset. -/
def initialCoresubset (fill : ℤ) (size n : ℕ) : Except Err (Data size ℤ K) :=
  if size > n then .error .valueError else .ok ⟨fun _ => fill, fun _ => 0⟩

/-- The loop state `(coreset_indices, kernel_similarity_penalty, coreset_size)`. -/
structure GreedyState (n m : ℕ) (K : Type*) where
  idx : Fin m → ℤ
  pen : Fin n → Ext K
  size : ℕ

/-- A selection function: iteration, masked penalty, coreset size ↦ index. -/
abbrev Selection (n : ℕ) (K : Type*) := ℕ → (Fin n → Ext K) → ℕ → ℤ

section
variable {n : ℕ} [NeZero n] {m : ℕ}

/-- `jnp.ravel(kernel.compute(data, data[index]))`; lines 181, 210. -/
def kernelColumn (k : X → X → K) (data : Fin n → X) (index : ℤ) : Fin n → Ext K :=
  fun j => Ext.fin (k (data j) (data (gatherIdx n index)))

/-- The penalty after removing the element that is being replaced; lines 179-186. -/
def subtractOwn (k : X → X → K) (data : Fin n → X) (cw : Fin m → K) (i : Fin m)
    (s : GreedyState n m K) : Fin n → Ext K :=
  if cw i > 0 then fun j => s.pen j - kernelColumn k data (s.idx i) j else s.pen

/-- The masked penalty handed to the selection function; lines 191-204: NaN for rows of non-positive weight, and (if
`unique`) `inf` for the other current members.  `ord` is the (unspecified) order of the scatter's writes. -/
def maskedPenalty (data_weights : Fin n → K) (unique : Bool) (ord : List (Fin m)) (cw : Fin m → K) (i : Fin m)
    (idx : Fin m → ℤ) (pen : Fin n → Ext K) : Fin n → Ext K :=
  let valid : Fin n → Ext K := fun j => if data_weights j > 0 then pen j else Ext.nan
  if unique then
    scatterSet ord valid idx
      (fun t => if idx t ≠ idx i ∧ cw t > 0 then Ext.pinf else valid (gatherIdx n (idx t)))
  else valid

/-- `_greedy_body`; `/repo/coreax/solvers/coresubset.py:173-217`. -/
def greedyBody (k : X → X → K) (data : Fin n → X) (data_weights : Fin n → K) (unique : Bool)
    (ord : List (Fin m)) (cw : Fin m → K) (sel : Selection n K) (i : Fin m) (s : GreedyState n m K) :
    GreedyState n m K :=
  let pen := subtractOwn k data cw i s
  let size := if cw i > 0 then s.size else s.size + 1
  let new := sel i (maskedPenalty data_weights unique ord cw i s.idx pen) size
  let updated : Fin n → Ext K := fun j => pen j + kernelColumn k data new j
  { idx := Function.update s.idx i new
    pen := if unique then setAt updated new Ext.pinf else updated
    size := size }

/-- Zero padding of weighted indices up to at least `out` entries; lines 150-154. -/
def padIndices (c : Data m ℤ K) (out : ℕ) : Data (m + (out - m)) ℤ K :=
  ⟨zeroPad c.data (out - m), zeroPad c.weights (out - m)⟩

theorem out_le_padded (m out : ℕ) : out ≤ m + (out - m) := by omega

/-- The initial penalty; lines 156-171: number of positive weights times `compute_mean(data, points, axis=1)`, where
`data` is the raw array and `points` carries the (padded) index weights. -/
def initPenalty (big : K) (k : X → X → K) (pre : Data n X K) (bs : PyTree (Option ℤ)) (c : Data m ℤ K) :
    Except Err ((Fin n → Ext K) × ℕ) :=
  let size := (Finset.univ.filter (fun t => c.weights t > 0)).card
  let points : Data m X K := ⟨fun t => pre.data (gatherIdx n (c.data t)), c.weights⟩
  match computeMean big k (Data.ofArray pre.data) points .one bs with
  | .error e => .error e
  | .ok l => .ok (fun j => Ext.fin ((size : K) * asVec n l j), size)

/-- `_greedy_kernel_selection`; `/repo/coreax/solvers/coresubset.py:125-226`.  Returns the new indices, which
`as_data` gives unit weights (line 226). -/
def greedySelection (big : K) (k : X → X → K) (pre : Data n X K) (bs : PyTree (Option ℤ)) (unique : Bool)
    (sel : Selection n K) (out : ℕ) (c : Data m ℤ K) (ord : List (Fin (m + (out - m)))) :
    Except Err (Data out ℤ K) :=
  let p := padIndices c out
  match initPenalty big k pre bs p with
  | .error e => .error e
  | .ok (pen, size) =>
    let s := forLoop out
      (fun i => greedyBody k pre.data pre.weights unique ord p.weights sel (i.castLE (out_le_padded m out)))
      ⟨p.data, pen, size⟩
    .ok ⟨fun t => s.idx (t.castLE (out_le_padded m out)), fun _ => 1⟩

/-! ### Kernel herding -/

/-- The residuals `gramian_row_mean - penalty / coreset_size`; lines 339-341. -/
def herdingResidual (rowMean : Fin n → K) (pen : Fin n → Ext K) (size : ℕ) : Fin n → Ext K :=
  fun j => Ext.fin (rowMean j) - pen j / Ext.fin (size : K)

/-- The draw of probabilistic herding (lines 344-349): iteration and residuals ↦ index drawn by `jr.choice` with
`p = softmax(residuals / temperature)` and key `fold_in(random_key, i)`.  External (random). -/
abbrev Draw (n : ℕ) (K : Type*) := ℕ → (Fin n → Ext K) → ℤ

/-- `selection_function` of `KernelHerding.refine`; lines 333-351; `prob = none` is `probabilistic=False`. -/
def herdingSelect (prob : Option (Draw n K)) (rowMean : Fin n → K) : Selection n K :=
  fun i pen size =>
    let residuals := herdingResidual rowMean pen size
    match prob with
    | some draw => draw i residuals
    | none => nanargmax residuals

/-- The Gramian row-mean: from the state if given, otherwise computed; lines 327-331 and 384-388. -/
def cachedRowMean (big : K) (k : X → X → K) (pre : Data n X K) (bs : PyTree (Option ℤ)) :
    Option (List K) → Except Err (List K)
  | some l => .ok l
  | none => gramianRowMean big k pre bs

/-- `KernelHerding.refine`; `/repo/coreax/solvers/coresubset.py:299-362`.  The solver state is the cached
Gramian row-mean. -/
def herdingRefine (big : K) (k : X → X → K) (prob : Option (Draw n K)) (unique : Bool) (bs : PyTree (Option ℤ)) (size : ℕ)
    (pre : Data n X K) (c : Data m ℤ K) (state : Option (List K)) (ord : List (Fin (m + (size - m)))) :
    Except Err (Data size ℤ K × List K) :=
  match cachedRowMean big k pre bs state with
  | .error e => .error e
  | .ok rm =>
    match greedySelection big k pre bs unique (herdingSelect prob (asVec n rm)) size c ord with
    | .error e => .error e
    | .ok r => .ok (r, rm)

/-- `KernelHerding.reduce`; `/repo/coreax/solvers/coresubset.py:290-297`. -/
def herdingReduce (big : K) (k : X → X → K) (prob : Option (Draw n K)) (unique : Bool) (bs : PyTree (Option ℤ)) (size : ℕ)
    (pre : Data n X K) (state : Option (List K)) (ord : List (Fin (size + (size - size)))) :
    Except Err (Data size ℤ K × List K) :=
  match (initialCoresubset 0 size n : Except Err (Data size ℤ K)) with
  | .error e => .error e
  | .ok c => herdingRefine big k prob unique bs size pre c state ord

/-- `KernelHerding.reduce_iterative`; `/repo/coreax/solvers/coresubset.py:364-413`.  The folded random key and the
scheduled temperature of iteration `i` are part of `prob i`. -/
def herdingReduceIterative (big : K) (k : X → X → K) (prob : ℕ → Option (Draw n K)) (unique : Bool) (bs : PyTree (Option ℤ)) (size : ℕ)
    (pre : Data n X K) (state : Option (List K)) (ord : List (Fin (size + (size - size)))) (iters : ℕ) :
    Except Err (Data size ℤ K × List K) :=
  match (initialCoresubset 0 size n : Except Err (Data size ℤ K)) with
  | .error e => .error e
  | .ok c =>
    match cachedRowMean big k pre bs state with
    | .error e => .error e
    | .ok rm =>
      match forLoop iters (fun i (acc : Except Err (Data size ℤ K)) =>
          match acc with
          | .error e => .error e
          | .ok c => match herdingRefine big k (prob i) unique bs size pre c (some rm) ord with
            | .error e => .error e
            | .ok r => .ok r.1) (.ok c) with
      | .error e => .error e
      | .ok r => .ok (r, rm)

/-! ### Stein thinning -/

/-- The objective of `SteinThinning`: diagonal + 2·penalty + Laplace correction − (i+1)·regularised log-density;
`/repo/coreax/solvers/coresubset.py:529-540`. -/
def steinObjective (diag lap logp : Fin n → K) (i : ℕ) (pen : Fin n → Ext K) : Fin n → Ext K :=
  fun j => ((Ext.fin (diag j) + Ext.fin 2 * pen j) + Ext.fin (lap j)) - Ext.fin ((i + 1 : K) * logp j)

/-- `selection_function` of `SteinThinning.refine`; lines 529-540. -/
def steinSelect (diag lap logp : Fin n → K) : Selection n K :=
  fun i pen _ => nanargmin (steinObjective diag lap logp i pen)

/-- The regularisation inputs of Stein thinning: Laplace terms (from the score function of the *converted* Stein
kernel, lines 519-525) and `λ · log p` (lines 509-517); both zero when `regularise=False` (lines 526-527).  KDE and
autodiff are external. -/
structure SteinReg (n : ℕ) (K : Type*) where
  lap : Fin n → K
  logp : Fin n → K

/-- `SteinThinning.refine`; `/repo/coreax/solvers/coresubset.py:481-551`.  Both the diagonal (line 507) and the penalty
(line 546) use `self.kernel`, i.e. the kernel `k` given by the user. -/
def steinRefine (big : K) (k : X → X → K) (unique : Bool) (bs : PyTree (Option ℤ)) (size : ℕ)
    (pre : Data n X K) (c : Data m ℤ K) (reg : Option (SteinReg n K)) (ord : List (Fin (m + (size - m)))) :
    Except Err (Data size ℤ K) :=
  let diag : Fin n → K := fun j => k (pre.data j) (pre.data j)
  let (lap, logp) := match reg with
    | some r => (r.lap, r.logp)
    | none => (fun _ => 0, fun _ => 0)
  greedySelection big k pre bs unique (steinSelect diag lap logp) size c ord

/-- `SteinThinning.reduce`; `/repo/coreax/solvers/coresubset.py:474-479`. -/
def steinReduce (big : K) (k : X → X → K) (unique : Bool) (bs : PyTree (Option ℤ)) (size : ℕ)
    (pre : Data n X K) (reg : Option (SteinReg n K)) (ord : List (Fin (size + (size - size)))) :
    Except Err (Data size ℤ K) :=
  match (initialCoresubset 0 size n : Except Err (Data size ℤ K)) with
  | .error e => .error e
  | .ok c => steinRefine big k unique bs size pre c reg ord

end

end Coreax
