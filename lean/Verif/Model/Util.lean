import Verif.Model.Kernel
import Verif.Model.Data
import Mathlib.Analysis.SpecialFunctions.Log.Base

/-!
# Model of helpers: `coreax/util.py`, `coreax/kernels/util.py`, `coreax/benchmark_util.py`

(The helpers for trees are in `Verif/Model/Mean.lean`, the sampling of batches in `Verif/Model/Batch.lean`.)
-/

namespace Coreax

/-! ### Pairwise evaluation -/

/-- The arguments of a pairwise function: a number, a vector, or an array of rows. -/
inductive PtArg (K : Type*)
  | scalar (c : K)
  | vector (d : ℕ) (v : Fin d → K)
  | matrix (n d : ℕ) (m : Fin n → Fin d → K)

/-- `jnp.atleast_2d`: number of rows, number of columns, rows. A vector becomes one row. -/
def PtArg.atleast2d {K : Type*} : PtArg K → (n : ℕ) × (d : ℕ) × (Fin n → Fin d → K)
  | .scalar c => ⟨1, 1, fun _ _ => c⟩
  | .vector d v => ⟨1, d, fun _ => v⟩
  | .matrix n d m => ⟨n, d, m⟩

/-- `_atleast_2d_consistent`: a vector becomes one column; `/repo/coreax/data.py:66-106` (see `atleast2d` for the same on shapes). -/
def PtArg.atleast2dConsistent {K : Type*} : PtArg K → (n : ℕ) × (d : ℕ) × (Fin n → Fin d → K)
  | .scalar c => ⟨1, 1, fun _ _ => c⟩
  | .vector d v => ⟨d, 1, fun i _ => v i⟩
  | .matrix n d m => ⟨n, d, m⟩

/-- `jax.vmap(f, in_axes=0, out_axes=0)` on an array with `n` rows. -/
def vmap0 {A B : Type*} {n : ℕ} (f : A → B) (a : Fin n → A) : Fin n → B := fun i => f (a i)

/-- `jax.vmap(f, in_axes=0, out_axes=1)` of a function that returns an array. -/
def vmap0out1 {A B : Type*} {n m : ℕ} (f : A → Fin n → B) (a : Fin m → A) : Fin n → Fin m → B := fun i j => f (a j) i

/-- `pairwise(fn)(x, y)`; `/repo/coreax/util.py:150-194`. `fn` is given for rows of any two lengths. -/
def pairwise {K α : Type*} (fn : ∀ {d e : ℕ}, (Fin d → K) → (Fin e → K) → α) (x y : PtArg K) : (n : ℕ) × (m : ℕ) × (Fin n → Fin m → α) :=
  ⟨x.atleast2d.1, y.atleast2d.1, vmap0out1 (fun yr => vmap0 (fun xr => fn xr yr) x.atleast2d.2.2) y.atleast2d.2.2⟩

/-- `apply_negative_precision_threshold`; `/repo/coreax/util.py:136-147`. -/
def negThreshold {K : Type*} [Field K] [LinearOrder K] (x : Ext K) (threshold : K) : Ext K :=
  if Ext.lt (Ext.fin (-|threshold|)) x && Ext.lt x (Ext.fin 0) then Ext.fin 0 else x

/-! ### Median heuristic -/

/-- The squared distances of the pairs `i < j`, in the order of `jnp.triu_indices_from(·, k=1)`;
`/repo/coreax/kernels/util.py:65-70`. -/
def pairDistances {n d : ℕ} (x : Fin n → Vec d) : List ℝ :=
  (List.finRange n).flatMap fun i => ((List.finRange n).filter fun j => i < j).map fun j => sqDist (x i) (x j)

/-- `jnp.median`: the middle of the sorted values, or the mean of the two in the middle; `none` is NaN, the median of nothing. -/
noncomputable def medianOf (l : List ℝ) : Option ℝ :=
  if l.length = 0 then none
  else some (((l.mergeSort (· ≤ ·)).getD ((l.length - 1) / 2) 0 + (l.mergeSort (· ≤ ·)).getD (l.length / 2) 0) / 2)

/-- `median_heuristic`; `/repo/coreax/kernels/util.py:50-72`, on the rows of an array; `none` is NaN. -/
noncomputable def medianHeuristic {n d : ℕ} (x : Fin n → Vec d) : Option ℝ :=
  (medianOf (pairDistances x)).map fun m => Real.sqrt (m / 2)

/-! ### The failure probability of kernel thinning in the benchmarks -/

/-- `calculate_delta`; `/repo/coreax/benchmark_util.py:88-114`, for `n ≥ 1`. -/
noncomputable def calculateDelta (n : ℕ) : ℝ :=
  let logN := Real.log n
  if 0 < logN then
    let logLogN := Real.log logN
    if 0 < logLogN then 1 / (n * logLogN) else 1 / (n * logN)
  else 1 / n

/-- The argument of the square root in `get_a_and_sigma` of kernel thinning; `/repo/coreax/solvers/coresubset.py:1474`. -/
noncomputable def thinningRadicand (delta : ℝ) : ℝ := 2 * Real.log (2 / delta)

/-! ### Formatting of times -/

/-- The units of `format_time`. -/
inductive TimeUnit
  | mins
  | ps
  | ns
  | us
  | ms
  | s
  deriving DecidableEq

/-- `format_time` before the number is turned into text; `/repo/coreax/util.py:303-336`: `none` for `"0 s"` (`log10(0)` raises
`ValueError`), otherwise the number of units before rounding, and the unit.  Finite numbers only. -/
noncomputable def formatTime (num : ℝ) : Option (ℝ × TimeUnit) :=
  if num = 0 then none
  else
    let order := Real.logb 10 |num|
    some (
      if 2 ≤ order then (num / 60, .mins)
      else if order < -9 then (10 ^ 12 * num, .ps)
      else if order < -6 then (10 ^ 9 * num, .ns)
      else if order < -3 then (10 ^ 6 * num, .us)
      else if order < 0 then (10 ^ 3 * num, .ms)
      else (num, .s))

/-- `round(x, 2)`: the nearest hundredth, the even one of two; `/repo/coreax/util.py:336`.  Decimal numbers are exact here. -/
noncomputable def round2 (x : ℝ) : ℝ :=
  let below := ⌊100 * x⌋
  let rest := 100 * x - below
  (if rest < 1 / 2 then below else if 1 / 2 < rest then below + 1 else if Even below then below else below + 1 : ℤ) / 100

/-- The number and the unit in the text of `format_time`; `/repo/coreax/util.py:303-336`. -/
noncomputable def formatTimeShown (num : ℝ) : ℝ × TimeUnit :=
  match formatTime num with
  | none => (0, .s)
  | some (v, u) => (round2 v, u)

end Coreax
