import Verif.Model.Coreset
import Verif.Model.Greedy
import Verif.Model.Metrics
import Verif.Model.Random
import Mathlib.Data.Nat.Log

/-!
# Model of kernel thinning and Compress++

`KernelThinning` and `CompressPlusPlus` of `/repo/coreax/solvers/coresubset.py:1324-1866`.  The solver's key is fixed, so
the uniform draws of `kt_half` are a sequence `u : ℕ → K` (every call starts again from `self.random_key`), and the
calls of `jr.choice` are functions given as parameters.
-/

namespace Coreax

namespace Ext
variable {K : Type*} [Field K] [LinearOrder K]

/-- `jnp.maximum`: NaN if one side is NaN. -/
def maximum (x y : Ext K) : Ext K :=
  if x.isNan then nan else if y.isNan then nan else if lt x y then y else x

/-- `x <= y` for floats: false as soon as one side is NaN. -/
def le (x y : Ext K) : Bool := !x.isNan && !y.isNan && !lt y x

end Ext

section Half
variable {X K : Type*} [Field K] [LinearOrder K]

/-- The state of the loop of `kt_half` (without the key); `/repo/coreax/solvers/coresubset.py:1571-1578`. -/
structure KTState (h : ℕ) (K : Type*) where
  first : Fin h → ℤ
  second : Fin h → ℤ
  sigma : Ext K
  maskX : Fin (2 * h) → K
  maskC : Fin h → K

/-- `compute_kernel_distance`; `/repo/coreax/solvers/coresubset.py:1462-1470`. `root` is the square root of numbers. -/
def ktDistance (root : K → K) (k : X → X → K) (x1 x2 : X) : Ext K :=
  Ext.sqrt root (Ext.fin (k x1 x1 + k x2 x2 - 2 * k x1 x2))

/-- `a` of `get_a_and_sigma`; `/repo/coreax/solvers/coresubset.py:1472-1474`. `c` is `jnp.sqrt(2 * jnp.log(2 / delta))`. -/
def ktA (c b sigma : Ext K) : Ext K := Ext.maximum (b * sigma * c) (b * b)

/-- `new_sigma` of `get_a_and_sigma`; `/repo/coreax/solvers/coresubset.py:1476-1479`. -/
def ktSigma (root : K → K) (b a sigma : Ext K) : Ext K :=
  Ext.sqrt root (sigma * sigma +
    Ext.maximum (b * b * (Ext.fin 1 + (b * b - Ext.fin 2 * a) * (sigma * sigma) / (a * a))) (Ext.fin 0))

/-- `alpha` of `get_alpha`; `/repo/coreax/solvers/coresubset.py:1512-1542`. The kernel returns finite numbers. -/
def ktAlpha {h : ℕ} [NeZero (2 * h)] (k : X → X → K) (x : Fin (2 * h) → X) (x1 x2 : X) (first : Fin h → ℤ)
    (maskX : Fin (2 * h) → K) (maskC : Fin h → K) : K :=
  let term1 := ∑ s, (k (x s) x1 - k (x s) x2) * maskX s
  let term2 := -2 * ∑ t, (k (x (gatherIdx (2 * h) (first t))) x1 - k (x (gatherIdx (2 * h) (first t))) x2) * maskC t
  term1 + term2

/-- `should_swap` of `probabilistic_swap`; `/repo/coreax/solvers/coresubset.py:1558-1567`. `u` is the uniform draw. -/
def ktSwap (u : K) (a : Ext K) (alpha : K) : Bool :=
  Ext.le (Ext.fin u) (Ext.fin (1 / 2) * (Ext.fin 1 - Ext.fin alpha / a))

/-- `kernel_thinning_body_fun`; `/repo/coreax/solvers/coresubset.py:1569-1634`. -/
def ktBody {h : ℕ} [NeZero (2 * h)] (root : K → K) (k : X → X → K) (c : Ext K) (u : ℕ → K) (x : Fin (2 * h) → X)
    (i : Fin h) (s : KTState h K) : KTState h K :=
  let x1 := x (gatherIdx (2 * h) ((i : ℤ) * 2))
  let x2 := x (gatherIdx (2 * h) ((i : ℤ) * 2 + 1))
  let b := ktDistance root k x1 x2
  let a := ktA c b s.sigma
  let newSigma := ktSigma root b a s.sigma
  let alpha := ktAlpha k x x1 x2 s.first s.maskX s.maskC
  let val : ℤ × ℤ := if ktSwap (u i) a alpha then (2 * (i : ℤ) + 1, 2 * (i : ℤ)) else (2 * (i : ℤ), 2 * (i : ℤ) + 1)
  { first := setAt s.first i val.1
    second := setAt s.second i val.2
    sigma := newSigma
    maskX := setAt (setAt s.maskX (2 * (i : ℤ)) 1) (2 * (i : ℤ) + 1) 1
    maskC := setAt s.maskC i 1 }

/-- The initial state of `kt_half`; `/repo/coreax/solvers/coresubset.py:1450-1460`. -/
def ktInit (h : ℕ) : KTState h K := ⟨fun _ => 0, fun _ => 0, Ext.fin 0, fun _ => 0, fun _ => 0⟩

/-- `kt_half` on a dataset of even length: the two index vectors; `/repo/coreax/solvers/coresubset.py:1436-1652`.
(`reduce` only ever halves datasets of even length; both results get unit weights by `Coresubset.build`.) -/
def ktHalf {h : ℕ} [NeZero (2 * h)] (root : K → K) (k : X → X → K) (c : Ext K) (u : ℕ → K) (x : Fin (2 * h) → X) :
    (Fin h → ℤ) × (Fin h → ℤ) :=
  let s := forLoop h (ktBody root k c u x) (ktInit h)
  (s.first, s.second)

end Half

/-- The number of rows at recursion depth `m` above coresets of `size` rows: `size * 2**m`. -/
def ktRows (size : ℕ) : ℕ → ℕ
  | 0 => size
  | m + 1 => 2 * ktRows size m

instance ktRowsNeZero (size m : ℕ) [h : NeZero size] : NeZero (ktRows size m) :=
  ⟨by induction m with
    | zero => exact h.out
    | succ m ih => simp only [ktRows]; omega⟩

instance ktRowsNeZero2 (size m : ℕ) [h : NeZero size] : NeZero (2 * ktRows size m) :=
  ktRowsNeZero size (m + 1)

section Reduce
variable {X K : Type*} [Field K] [LinearOrder K] {n : ℕ} [NeZero n]

/-- `kt_half_recursive` on a `Coresubset` with indices `parent` into the original dataset `d`;
`/repo/coreax/solvers/coresubset.py:1387-1434`. -/
def ktHalfRecursive {size : ℕ} [NeZero size] (root : K → K) (k : X → X → K) (c : Ext K) (u : ℕ → K) (d : Fin n → X) :
    (m : ℕ) → (Fin (ktRows size m) → ℤ) → List (Fin size → ℤ)
  | 0, parent => [parent]
  | m + 1, parent =>
    let s := ktHalf root k c u (fun t : Fin (2 * ktRows size m) => d (gatherIdx n (parent t)))
    let subset1 := fun t => parent (gatherIdx (2 * ktRows size m) (s.1 t))
    let subset2 := fun t => parent (gatherIdx (2 * ktRows size m) (s.2 t))
    ktHalfRecursive root k c u d m subset1 ++ ktHalfRecursive root k c u d m subset2

/-- `kt_half_recursive` on the clipped dataset (the first `size * 2**m` rows of `d`);
`/repo/coreax/solvers/coresubset.py:1376-1382, 1385-1429`: the indices of the first halving are not remapped. -/
def ktPartition {size : ℕ} [NeZero size] (root : K → K) (k : X → X → K) (c : Ext K) (u : ℕ → K) (d : Fin n → X) :
    ℕ → List (Fin size → ℤ)
  | 0 => [fun t => ((t : ℕ) : ℤ)]
  | m + 1 =>
    let s := ktHalf root k c u (fun t : Fin (2 * ktRows size m) => d (gatherIdx n ((t : ℕ) : ℤ)))
    ktHalfRecursive root k c u d m s.1 ++ ktHalfRecursive root k c u d m s.2

end Reduce

section Choose
variable {X K : Type*}

/-- `jnp.argmin` of a list of numbers: the first index of a least value (`0` on an empty list, which does not occur). -/
def argminList [LinearOrder K] (l : List K) : ℕ :=
  match (List.finRange l.length).argmin (fun i => l.get i) with
  | some i => i
  | none => 0

/-- The calls of `mmd.compute` on all candidates, in order; the first error is raised. -/
def collectMmd {α : Type*} : List (Except Err α) → Except Err (List α)
  | [] => .ok []
  | .error e :: _ => .error e
  | .ok a :: l => match collectMmd l with
    | .error e => .error e
    | .ok r => .ok (a :: r)

/-- `kt_choose`; `/repo/coreax/solvers/coresubset.py:1669-1686`. The candidates are passed as arrays, hence with unit
weights. -/
noncomputable def ktChoose [Zero X] {n size : ℕ} [NeZero n] (big : ℝ) (k : X → X → ℝ) (points : Data n X ℝ)
    (cands : List (Fin size → ℤ)) : Except Err (Fin size → ℤ) :=
  match collectMmd (cands.map fun c =>
      mmdCompute big k (⟨fun t => points.data (gatherIdx n (c t)), fun _ => 1⟩ : Data size X ℝ) points (.leaf none)) with
  | .error e => .error e
  | .ok vals => .ok (cands.getD (argminList vals) (fun _ => 0))

/-- `kt_refine` drops the state of the herding solver; `/repo/coreax/solvers/coresubset.py:1688-1704`. -/
def dropState {α β : Type*} : Except Err (α × β) → Except Err α
  | .error e => .error e
  | .ok r => .ok r.1

/-- `KernelThinning.reduce`; `/repo/coreax/solvers/coresubset.py:1354-1385`.  The number `m` of halvings is
`math.floor(math.log2(n) - math.log2(coreset_size))` in double precision, which is `⌊log₂ (n / coreset_size)⌋` or, by
rounding, one less (`Model/FloatLog.lean`, C72); it is a parameter, and the theorems hold for every `m`
with `coreset_size * 2**m ≤ n`.  `sk` is the square-root kernel, `choice` the draw of the baseline, `ord` the order of
conflicting scatter writes in the refinement.  The result is the data of the refined coreset's indices. -/
noncomputable def ktReduce [Zero X] {n size : ℕ} [NeZero n] [NeZero size] (big : ℝ) (k sk : X → X → ℝ) (c : Ext ℝ)
    (u : ℕ → ℝ) (choice : Choice n size ℝ) (ord : List (Fin (size + (size - size)))) (m : ℕ) (dataset : Data n X ℝ) :
    Except Err (Data size ℤ ℝ) :=
  if size > n then .error .valueError
  else
    let partition := ktPartition (size := size) Real.sqrt sk c u dataset.data m
    match (randomSample false true ⟨n, ⟨dataset, (none : Option (Fin n → Unit))⟩⟩ choice) with
    | .error e => .error e
    | .ok baseline =>
      match ktChoose big k dataset
          (partition ++ [fun t : Fin size => if h : (t : ℕ) < baseline.m then baseline.indices.data ⟨t, h⟩ else 0]) with
      | .error e => .error e
      | .ok best =>
        dropState (herdingRefine big k none true (.leaf none) size dataset ⟨best, fun _ => 1⟩ none ord)

end Choose

section Compress
variable {X : Type*}

/-- The number of indices given to `_compress`, `j` levels above `4**g`. -/
def cppRows (g : ℕ) : ℕ → ℕ
  | 0 => 4 ^ g
  | j + 1 => 4 * cppRows g j

/-- The number of indices returned by `_compress`, `j` levels above `4**g`. -/
def cppSize (g : ℕ) : ℕ → ℕ
  | 0 => 4 ^ g
  | j + 1 => 2 * cppSize g j

instance cppSizeNeZero (g j : ℕ) : NeZero (cppSize g j) :=
  ⟨by induction j with
    | zero => exact (Nat.pow_pos (by norm_num)).ne'
    | succ j ih => simp only [cppSize]; omega⟩

/-- What the calls of kernel thinning inside Compress++ share: kernels, constant, the draws determined by the key, the
numbers of halvings and the orders of conflicting scatter writes. -/
structure KTParams (X : Type*) where
  big : ℝ
  k : X → X → ℝ
  sk : X → X → ℝ
  c : Ext ℝ
  u : ℕ → ℝ
  choice : ∀ n size : ℕ, Choice n size ℝ
  ord : ∀ size : ℕ, List (Fin (size + (size - size)))
  halvings : ℕ → ℕ → ℕ

/-- `_compress_half` and `_compress_thin`; `/repo/coreax/solvers/coresubset.py:1787-1830`: kernel thinning of
`dataset[indices]` to `size` points, and the selected indices. -/
noncomputable def cppThin [Zero X] {n : ℕ} [NeZero n] (P : KTParams X) (dataset : Data n X ℝ) {l : ℕ} [NeZero l]
    (size : ℕ) [NeZero size] (indices : Fin l → ℤ) : Except Err (Fin size → ℤ) :=
  match ktReduce P.big P.k P.sk P.c P.u (P.choice l size) (P.ord size) (P.halvings l size) (dataset.getItem indices) with
  | .error e => .error e
  | .ok r => .ok (fun t => indices (gatherIdx l (r.data t)))

/-- `_compress` on `4**g * 4**j` indices; `/repo/coreax/solvers/coresubset.py:1832-1853`.  The reshape to four rows is in
row-major order; halving `4 * s` indices asks for a coreset of size `4 * s // 2`. -/
noncomputable def cppCompress [Zero X] {n : ℕ} [NeZero n] (P : KTParams X) (dataset : Data n X ℝ) (g : ℕ) :
    (j : ℕ) → (Fin (cppRows g j) → ℤ) → Except Err (Fin (cppSize g j) → ℤ)
  | 0, indices => .ok indices
  | j + 1, indices =>
    let sub : Fin 4 → Fin (cppRows g j) → ℤ := fun q t => indices (finProdFinEquiv (q, t))
    match cppCompress P dataset g j (sub 0), cppCompress P dataset g j (sub 1), cppCompress P dataset g j (sub 2),
        cppCompress P dataset g j (sub 3) with
    | .ok r0, .ok r1, .ok r2, .ok r3 =>
      let rows : Fin 4 → Fin (cppSize g j) → ℤ := ![r0, r1, r2, r3]
      let concatenated : Fin (4 * cppSize g j) → ℤ :=
        fun p => rows (finProdFinEquiv.symm p).1 (finProdFinEquiv.symm p).2
      cppThin P dataset (2 * cppSize g j) concatenated
    | .error e, _, _, _ => .error e
    | _, .error e, _, _ => .error e
    | _, _, .error e, _ => .error e
    | _, _, _, .error e => .error e

/-- `CompressPlusPlus.reduce` with a computed level `p`; `/repo/coreax/solvers/coresubset.py:1743-1866`.  `clip` is the draw of the clipped indices. -/
noncomputable def compressPlusPlusAt [Zero X] {n size : ℕ} [NeZero n] [NeZero size] (p : ℕ) (P : KTParams X) (g : ℤ)
    (clip : ∀ l : ℕ, Choice n l ℝ) (dataset : Data n X ℝ) : Except Err (Fin size → ℤ) :=
  if size > n then .error .valueError
  else
    if h : 0 ≤ g ∧ g ≤ p then
      if size ≤ 2 ^ g.toNat * 2 ^ p then
        let indices : Fin (cppRows g.toNat (p - g.toNat)) → ℤ := clip _ none false
        match cppCompress P dataset g.toNat (p - g.toNat) indices with
        | .error e => .error e
        | .ok r => cppThin P dataset size r
      else .error .valueError
    else .error .valueError

/-- The same where `math.floor(math.log(n, 4))` is the exact integer logarithm (`Model/FloatLog.lean` has the computed one);
`/repo/coreax/solvers/coresubset.py:1743-1866`. -/
noncomputable def compressPlusPlus [Zero X] {n size : ℕ} [NeZero n] [NeZero size] (P : KTParams X) (g : ℤ)
    (clip : ∀ l : ℕ, Choice n l ℝ) (dataset : Data n X ℝ) : Except Err (Fin size → ℤ) :=
  compressPlusPlusAt (Nat.log 4 n) P g clip dataset

end Compress

end Coreax
