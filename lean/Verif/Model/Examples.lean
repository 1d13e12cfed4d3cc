import Verif.Model.Batch
import Verif.Model.Kernel
import Verif.Model.Util
import Mathlib.Analysis.SpecialFunctions.Pow.Real

/-!
# Model of the worked examples in `/repo/examples`
-/

namespace Coreax

/-! ## `greedy_kernel_points_analytic.py` -/

/-- The data of the worked example; `/repo/examples/greedy_kernel_points_analytic.py:259-261`. -/
def gkpExampleX : Fin 3 → Vec 2 := ![![1, 0], ![0, 1], ![2, 1]]

/-- Its supervision; `/repo/examples/greedy_kernel_points_analytic.py:259-261`. -/
def gkpExampleY : Fin 3 → ℝ := ![0, 1, 5]

/-- `main`; `/repo/examples/greedy_kernel_points_analytic.py:252-283`: two points with a linear kernel; `reg` is the
regularisation parameter (by default `1e-6`, `/repo/coreax/solvers/coresubset.py:1177`), `solve` the least-squares solver,
`permC`, `permL` the permutations drawn from the key. -/
noncomputable def gkpExample (solve : RlsSolver ℝ) (reg : ℝ) (permC permL : Fin 2 → Fin 3 → ℤ) :
    Except Err (Data 2 ℤ ℝ × (Fin 4 → Fin 4 → ℝ)) :=
  gkpReduce solve (KExpr.linear 1 0 : KExpr 2).sem.compute gkpExampleX gkpExampleY reg true none none 2 permC permL none

/-! ## `coreset_in_model_pipeline.py` -/

/-- The number reported as root mean square error; `/repo/examples/coreset_in_model_pipeline.py:114-116, 137-139, 153-155`: the
responses `y` and predictions `p` of the test data, and `n = num_data_pairs`, the size of all the data. -/
noncomputable def reportedRmse {t : ℕ} (n : ℕ) (y p : Fin t → ℝ) : ℝ := Real.sqrt ((∑ i, (y i - p i) ^ 2) / n)

/-- `x[idx]`; `/repo/examples/coreset_in_model_pipeline.py:99-102`: `idx` is drawn from the size of all the data, `x` is the
training data only (line 80 rebinds it); indices beyond the end are read as the last one. -/
def bandwidthRows {α : Type*} {train m : ℕ} [NeZero train] (x : Fin train → α) (idx : Fin m → ℤ) : Fin m → α :=
  fun t => x (gatherIdx train (idx t))

/-- scikit-learn's kernel `"rbf"`: `exp(-gamma * |x - y|^2)`; called with `gamma=length_scale`,
`/repo/examples/coreset_in_model_pipeline.py:107-112, 129-134, 146-151`. -/
noncomputable def rbfKernel {d : ℕ} (gamma : ℝ) (x y : Vec d) : ℝ := Real.exp (-gamma * sqDist x y)

/-! ## `david_map_reduce_weighted.py` -/

/-- `width` and `height` in `downsample_opencv`; `/repo/examples/david_map_reduce_weighted.py:81-87`: `int(w * (1 / f))` in the
floating-point operations `mul`, `div` (the value is not negative, so `int` rounds down). -/
noncomputable def downsampleDim (mul div : ℝ → ℝ → ℝ) (w f : ℕ) : ℤ := ⌊mul w (div 1 f)⌋

/-- `np.nonzero(mask)` for a matrix: the positions in row-major order; `/repo/examples/david_map_reduce_weighted.py:140`. -/
def nonzero2 {h w : ℕ} (mask : Fin h → Fin w → Bool) : List (Fin h × Fin w) :=
  (List.finRange h).flatMap fun r => ((List.finRange w).filter fun c => mask r c).map fun c => (r, c)

/-- `image[mask]` for a matrix: the values at the positions of the mask in row-major order;
`/repo/examples/david_map_reduce_weighted.py:141`. -/
def maskSelect {α : Type*} {h w : ℕ} (image : Fin h → Fin w → α) (mask : Fin h → Fin w → Bool) : List α :=
  (List.finRange h).flatMap fun r => ((List.finRange w).filter fun c => mask r c).map fun c => image r c

/-- `pre_coreset_data`; `/repo/examples/david_map_reduce_weighted.py:140-144` and `/repo/benchmark/david_benchmark.py:88-92`:
row, column and value of the pixels below 255, side by side (the conversion to 32-bit floats is exact for such integers). -/
def pixelTable {h w : ℕ} (image : Fin h → Fin w → ℕ) : List ((Fin h × Fin w) × ℕ) :=
  (nonzero2 fun r c => decide (image r c < 255)).zip (maskSelect image fun r c => decide (image r c < 255))

/-- `block_size`, `coreset_size`, the number of samples for the length scale and `leaf_size`;
`/repo/examples/david_map_reduce_weighted.py:137, 148, 154, 187`, for a downsampling factor `f ≥ 1` and `n` data points. -/
def davidSizes (n f : ℕ) : ℕ × ℕ × ℕ × ℕ :=
  (1000 / f ^ 2, 8000 / f ^ 2, min n (1000 / f ^ 2), 16000 / f ^ 2)

/-- `length_scale`; `/repo/examples/david_map_reduce_weighted.py:158-160`; `none` is NaN, for which the comparison is false. -/
noncomputable def davidLengthScale {m d : ℕ} (rows : Fin m → Vec d) : Option ℝ :=
  (medianHeuristic rows).map fun l => if l < 1 / 10 ^ 6 then 100 else l

/-- `np.percentile(l, q)` with linear interpolation, for a non-empty list. -/
noncomputable def percentile (l : List ℝ) (q : ℝ) : ℝ :=
  let s := l.mergeSort (· ≤ ·)
  let v := ((l.length - 1 : ℕ) : ℝ) * (q / 100)
  let lo := s.getD (min ⌊v⌋₊ (l.length - 1)) 0
  let hi := s.getD (min (⌊v⌋₊ + 1) (l.length - 1)) 0
  lo + (hi - lo) * (v - ⌊v⌋₊)

/-- `clipped_weights`; `/repo/examples/david_map_reduce_weighted.py:233-238`. -/
noncomputable def clippedWeights (w : List ℝ) : List ℝ :=
  w.map fun x => min (max x (percentile w 1)) (percentile w 99)

/-- `transform_marker_size`; `/repo/examples/david_map_reduce_weighted.py:217-248`, for a non-empty array; `none` is NaN, the
result of `0 / 0`.  `a.min()` and `a.max()` are the least and the greatest entry. -/
noncomputable def markerSizes (scale minSize : ℝ) (w : List ℝ) : List (Option ℝ) :=
  let c := clippedWeights w
  let lo := (c.min?).getD 0
  let hi := (c.max?).getD 0
  c.map fun x => if hi - lo = 0 then none else some (minSize + (scale ^ ((x - lo) / (hi - lo)) - 1) * minSize)

end Coreax
