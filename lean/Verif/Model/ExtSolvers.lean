import Verif.Model.ExtKernel
import Verif.Model.Thinning

/-!
# Random solvers with kernels whose values need not be numbers

`RPCholesky` and `KernelThinning` as in `Model/Random.lean` and `Model/Thinning.lean`, with kernel values in `Ext`
(see `Model/ExtKernel.lean`).
-/

namespace Coreax

/-! ### Randomly pivoted Cholesky -/

section
variable {X K : Type*} [Field K] [LinearOrder K] {n : ℕ} [NeZero n] {size : ℕ}

/-- The column `g`; `/repo/coreax/solvers/coresubset.py:645-649`. -/
def pivotColumnX (k : X → X → Ext K) (x : Fin n → X) (approx : Fin n → Fin size → Ext K) (pivot : ℤ) : Fin n → Ext K :=
  fun j => k (x j) (x (gatherIdx n pivot)) - Ext.sum (fun t => approx j t * approx (gatherIdx n pivot) t)

/-- `_greedy_body` of `RPCholesky.reduce`; `/repo/coreax/solvers/coresubset.py:622-667`. -/
def rpcBodyX (root : K → K) (k : X → X → Ext K) (x : Fin n → X) (unique : Bool) (draw : PivotDraw n K)
    (i : Fin size) (s : RPCState n size K) : RPCState n size K :=
  let pivot := draw i (validResiduals s)
  let g := pivotColumnX k x s.approx pivot
  let column : Fin n → Ext K := fun j => g j / Ext.sqrt root (g (gatherIdx n pivot))
  let residual : Fin n → Ext K := fun j => Ext.max0 (s.residual j - column j * column j)
  { residual := if unique then setAt residual pivot (Ext.fin 0) else residual
    approx := fun j => Function.update (s.approx j) i (column j)
    idx := Function.update s.idx i pivot }

/-- `RPCholesky.reduce` without a solver state; `/repo/coreax/solvers/coresubset.py:583-682`. -/
def rpcReduceX (root : K → K) (k : X → X → Ext K) (x : Fin n → X) (unique : Bool) (draw : PivotDraw n K) (size : ℕ) :
    Except Err (Data size ℤ K × (Fin n → Ext K)) :=
  match (initialCoresubset ((n : ℤ) + 1) size n : Except Err (Data size ℤ K)) with
  | .error e => .error e
  | .ok c =>
    let s := forLoop size (rpcBodyX root k x unique draw) ⟨fun j => k (x j) (x j), fun _ _ => Ext.fin 0, c.data⟩
    .ok (⟨s.idx, fun _ => 1⟩, s.residual)

end

/-! ### Kernel thinning -/

section
variable {X K : Type*} [Field K] [LinearOrder K]

/-- `compute_kernel_distance`; `/repo/coreax/solvers/coresubset.py:1462-1470`. -/
def ktDistanceX (root : K → K) (k : X → X → Ext K) (x1 x2 : X) : Ext K :=
  Ext.sqrt root (k x1 x1 + k x2 x2 - Ext.fin 2 * k x1 x2)

/-- `alpha` of `get_alpha`; `/repo/coreax/solvers/coresubset.py:1512-1542`. The masks are multiplied, so that values that
are not numbers get through a mask of zeros. -/
def ktAlphaX {h : ℕ} [NeZero (2 * h)] (k : X → X → Ext K) (x : Fin (2 * h) → X) (x1 x2 : X) (first : Fin h → ℤ)
    (maskX : Fin (2 * h) → K) (maskC : Fin h → K) : Ext K :=
  let term1 := ∑ s, (k (x s) x1 - k (x s) x2) * Ext.fin (maskX s)
  let term2 := Ext.fin (-2) * ∑ t, (k (x (gatherIdx (2 * h) (first t))) x1 - k (x (gatherIdx (2 * h) (first t))) x2)
    * Ext.fin (maskC t)
  term1 + term2

/-- `should_swap` of `probabilistic_swap`; `/repo/coreax/solvers/coresubset.py:1558-1567`. -/
def ktSwapX (u : K) (a alpha : Ext K) : Bool :=
  Ext.le (Ext.fin u) (Ext.fin (1 / 2) * (Ext.fin 1 - alpha / a))

/-- `kernel_thinning_body_fun`; `/repo/coreax/solvers/coresubset.py:1569-1634`. -/
def ktBodyX {h : ℕ} [NeZero (2 * h)] (root : K → K) (k : X → X → Ext K) (c : Ext K) (u : ℕ → K) (x : Fin (2 * h) → X)
    (i : Fin h) (s : KTState h K) : KTState h K :=
  let x1 := x (gatherIdx (2 * h) ((i : ℤ) * 2))
  let x2 := x (gatherIdx (2 * h) ((i : ℤ) * 2 + 1))
  let b := ktDistanceX root k x1 x2
  let a := ktA c b s.sigma
  let newSigma := ktSigma root b a s.sigma
  let alpha := ktAlphaX k x x1 x2 s.first s.maskX s.maskC
  let val : ℤ × ℤ := if ktSwapX (u i) a alpha then (2 * (i : ℤ) + 1, 2 * (i : ℤ)) else (2 * (i : ℤ), 2 * (i : ℤ) + 1)
  { first := setAt s.first i val.1
    second := setAt s.second i val.2
    sigma := newSigma
    maskX := setAt (setAt s.maskX (2 * (i : ℤ)) 1) (2 * (i : ℤ) + 1) 1
    maskC := setAt s.maskC i 1 }

/-- `kt_half`; `/repo/coreax/solvers/coresubset.py:1436-1652`. -/
def ktHalfX {h : ℕ} [NeZero (2 * h)] (root : K → K) (k : X → X → Ext K) (c : Ext K) (u : ℕ → K) (x : Fin (2 * h) → X) :
    (Fin h → ℤ) × (Fin h → ℤ) :=
  let s := forLoop h (ktBodyX root k c u x) (ktInit h)
  (s.first, s.second)

variable {n : ℕ} [NeZero n]

/-- `kt_half_recursive`; `/repo/coreax/solvers/coresubset.py:1387-1434`. -/
def ktHalfRecursiveX {size : ℕ} [NeZero size] (root : K → K) (k : X → X → Ext K) (c : Ext K) (u : ℕ → K) (d : Fin n → X) :
    (m : ℕ) → (Fin (ktRows size m) → ℤ) → List (Fin size → ℤ)
  | 0, parent => [parent]
  | m + 1, parent =>
    let s := ktHalfX root k c u (fun t : Fin (2 * ktRows size m) => d (gatherIdx n (parent t)))
    let subset1 := fun t => parent (gatherIdx (2 * ktRows size m) (s.1 t))
    let subset2 := fun t => parent (gatherIdx (2 * ktRows size m) (s.2 t))
    ktHalfRecursiveX root k c u d m subset1 ++ ktHalfRecursiveX root k c u d m subset2

/-- `kt_half_recursive` on the clipped dataset; `/repo/coreax/solvers/coresubset.py:1376-1429`. -/
def ktPartitionX {size : ℕ} [NeZero size] (root : K → K) (k : X → X → Ext K) (c : Ext K) (u : ℕ → K) (d : Fin n → X) :
    ℕ → List (Fin size → ℤ)
  | 0 => [fun t => ((t : ℕ) : ℤ)]
  | m + 1 =>
    let s := ktHalfX root k c u (fun t : Fin (2 * ktRows size m) => d (gatherIdx n ((t : ℕ) : ℤ)))
    ktHalfRecursiveX root k c u d m s.1 ++ ktHalfRecursiveX root k c u d m s.2

/-- `jnp.argmin` of floats: the first NaN if there is one, otherwise the first least value. -/
def argminListX (l : List (Ext K)) : ℕ :=
  match l.findIdx? Ext.isNan with
  | some i => i
  | none => argminList (l.map Ext.keyMin)

/-- `KernelHerding.refine`, deterministic and without a cached row mean; `/repo/coreax/solvers/coresubset.py:299-362`. -/
def herdingRefineX [Zero X] (big : K) (k : X → X → Ext K) (unique : Bool) (bs : PyTree (Option ℤ)) (size : ℕ)
    (pre : Data n X K) {m : ℕ} (c : Data m ℤ K) (ord : List (Fin (m + (size - m)))) : Except Err (Data size ℤ K × List (Ext K)) :=
  match computeMeanX big k pre pre .zero bs with
  | .error e => .error e
  | .ok rm =>
    match greedySelectionX big k pre bs unique
        (fun _ pen size => nanargmax fun j => asVec n rm j - pen j / Ext.fin (size : K)) size c ord with
    | .error e => .error e
    | .ok r => .ok (r, rm)

end

section
variable {X : Type*} [Zero X] {n size : ℕ} [NeZero n]

/-- `kt_choose`; `/repo/coreax/solvers/coresubset.py:1669-1686`. -/
noncomputable def ktChooseX (big : ℝ) (k : X → X → Ext ℝ) (points : Data n X ℝ)
    (cands : List (Fin size → ℤ)) : Except Err (Fin size → ℤ) :=
  match collectMmd (cands.map fun c =>
      mmdComputeX big k (⟨fun t => points.data (gatherIdx n (c t)), fun _ => 1⟩ : Data size X ℝ) points (.leaf none)) with
  | .error e => .error e
  | .ok vals => .ok (cands.getD (argminListX vals) (fun _ => 0))

/-- `KernelThinning.reduce`; `/repo/coreax/solvers/coresubset.py:1354-1385`; parameters as for `ktReduce`. -/
noncomputable def ktReduceX [NeZero size] (big : ℝ) (k sk : X → X → Ext ℝ) (c : Ext ℝ)
    (u : ℕ → ℝ) (choice : Choice n size ℝ) (ord : List (Fin (size + (size - size)))) (m : ℕ) (dataset : Data n X ℝ) :
    Except Err (Data size ℤ ℝ) :=
  if size > n then .error .valueError
  else
    let partition := ktPartitionX (size := size) Real.sqrt sk c u dataset.data m
    match (randomSample false true ⟨n, ⟨dataset, (none : Option (Fin n → Unit))⟩⟩ choice) with
    | .error e => .error e
    | .ok baseline =>
      match ktChooseX big k dataset
          (partition ++ [fun t : Fin size => if h : (t : ℕ) < baseline.m then baseline.indices.data ⟨t, h⟩ else 0]) with
      | .error e => .error e
      | .ok best =>
        dropState (herdingRefineX big k true (.leaf none) size dataset ⟨best, fun _ => 1⟩ ord)

end

end Coreax
