import Verif.Model.Benchmarks
import Verif.Model.MapReduce
import Verif.Model.Softmax
import Verif.Model.Kernel

/-!
# Model of `coreax/benchmark_util.py`

`initialise_solvers` with the nine functions that construct solvers, and `IterativeKernelHerding`. (`calculate_delta` is in `Verif.Model.Util`.)

The square-root kernel, the Stein kernel and the random key are shared by the solvers that need them and are not part of the configuration recorded here. The draw of the rows for the
length scale is a parameter.
-/

namespace Coreax

/-- The fields `num_iterations`, `t_schedule`, `probabilistic` and `temperature` of `IterativeKernelHerding`; `/repo/coreax/benchmark_util.py:63-64`,
`/repo/coreax/solvers/coresubset.py:284-285`. -/
structure IterParams where
  iterations : ℕ
  schedule : Option (List ℝ)
  probabilistic : Bool
  temperature : ℝ

/-- A solver that is not a `MapReduce`: class, `coreset_size`, and `delta`, `g`, the fields of iterative herding where the class has them. -/
structure BaseConfig where
  method : Method
  size : ℕ
  delta : Option ℝ := none
  g : Option ℤ := none
  iter : Option IterParams := none

/-- A solver as returned by one of the nine functions: `leaf = some l` is `MapReduce(base, leaf_size=l)`. -/
structure BenchSolver where
  base : BaseConfig
  leaf : Option ℤ

/-- The construction of an `ExplicitSizeSolver` with a given `coreset_size`; `/repo/coreax/solvers/base.py:106-111`. -/
def constructBase (size : ℤ) (config : ℕ → BaseConfig) : Except Err BaseConfig :=
  if size ≤ 0 then .error .valueError else .ok (config size.toNat)

/-- `return solver if leaf_size is None else MapReduce(solver, leaf_size=leaf_size)`; `/repo/coreax/benchmark_util.py:168-170, 184-186, 224-226, 286-288, 311-313, 340-342`. -/
def wrapLeaf (leaf : Option ℤ) (b : Except Err BaseConfig) : Except Err BenchSolver :=
  match b with
  | .error e => .error e
  | .ok b => match leaf with
    | none => .ok ⟨b, none⟩
    | some l => match mrCheckInit l (some (b.size : ℤ)) with
      | .error e => .error e
      | .ok () => .ok ⟨b, some l⟩

/-- A solver that is never wrapped. -/
def unwrapped (b : Except Err BaseConfig) : Except Err BenchSolver :=
  match b with
  | .error e => .error e
  | .ok b => .ok ⟨b, none⟩

/-- `_get_thinning_solver`; `/repo/coreax/benchmark_util.py:150-170`. -/
noncomputable def getThinningSolver (n : ℕ) (leaf : Option ℤ) (size : ℤ) : Except Err BenchSolver :=
  wrapLeaf leaf (constructBase size fun s => { method := .kernelThinning, size := s, delta := some (calculateDelta n) })

/-- `_get_herding_solver`; `/repo/coreax/benchmark_util.py:172-186`. -/
def getHerdingSolver (leaf : Option ℤ) (size : ℤ) : Except Err BenchSolver :=
  wrapLeaf leaf (constructBase size fun s => { method := .kernelHerding, size := s })

/-- `_get_stein_solver`; `/repo/coreax/benchmark_util.py:188-226`. -/
def getSteinSolver (leaf : Option ℤ) (size : ℤ) : Except Err BenchSolver :=
  wrapLeaf leaf (constructBase size fun s => { method := .steinThinning, size := s })

/-- `_get_random_solver`; `/repo/coreax/benchmark_util.py:228-236`. -/
def getRandomSolver (size : ℤ) : Except Err BenchSolver :=
  unwrapped (constructBase size fun s => { method := .randomSample, size := s })

/-- `_get_rp_solver`; `/repo/coreax/benchmark_util.py:238-246`. -/
def getRpSolver (size : ℤ) : Except Err BenchSolver :=
  unwrapped (constructBase size fun s => { method := .rpCholesky, size := s })

/-- `_get_compress_solver`; `/repo/coreax/benchmark_util.py:248-263`. -/
noncomputable def getCompressSolver (n : ℕ) (g : ℤ) (size : ℤ) : Except Err BenchSolver :=
  unwrapped (constructBase size fun s => { method := .compressPlusPlus, size := s, delta := some (calculateDelta n), g := some g })

/-- `_get_probabilistic_herding_solver`; `/repo/coreax/benchmark_util.py:265-288`. -/
noncomputable def getProbabilisticHerdingSolver (leaf : Option ℤ) (size : ℤ) : Except Err BenchSolver :=
  wrapLeaf leaf (constructBase size fun s => { method := .iterativeHerding, size := s, iter := some ⟨5, none, true, 1 / 1000⟩ })

/-- `_get_iterative_herding_solver`; `/repo/coreax/benchmark_util.py:290-313`. -/
noncomputable def getIterativeHerdingSolver (leaf : Option ℤ) (size : ℤ) : Except Err BenchSolver :=
  wrapLeaf leaf (constructBase size fun s => { method := .iterativeHerding, size := s, iter := some ⟨5, none, false, 1 / 1000⟩ })

/-- `jnp.linspace(start, stop, num)` for `num ≥ 2`. -/
noncomputable def linspace (start stop : ℝ) (num : ℕ) : List ℝ :=
  (List.range num).map fun i : ℕ => start + (i : ℝ) * ((stop - start) / ((num : ℝ) - 1))

/-- `t_schedule = 1 / jnp.linspace(10, 100, n_iter) ** 3` with `n_iter = 10`; `/repo/coreax/benchmark_util.py:328-329`. -/
noncomputable def cubicSchedule : List ℝ := (linspace 10 100 10).map fun x => 1 / x ^ 3

/-- `_get_cubic_iterative_herding_solver`; `/repo/coreax/benchmark_util.py:315-342`. -/
noncomputable def getCubicIterativeHerdingSolver (leaf : Option ℤ) (size : ℤ) : Except Err BenchSolver :=
  wrapLeaf leaf (constructBase size fun s => { method := .iterativeHerding, size := s, iter := some ⟨10, some cubicSchedule, true, 1 / 1000⟩ })

/-- The dictionary returned by `initialise_solvers` for data with `n` rows; `/repo/coreax/benchmark_util.py:344-354`. -/
noncomputable def solverFactories (n : ℕ) (g : ℤ) (leaf : Option ℤ) : List (String × (ℤ → Except Err BenchSolver)) :=
  [("Random Sample", getRandomSolver),
   ("RP Cholesky", getRpSolver),
   ("Kernel Herding", getHerdingSolver leaf),
   ("Stein Thinning", getSteinSolver leaf),
   ("Kernel Thinning", getThinningSolver n leaf),
   ("Compress++", getCompressSolver n g),
   ("Iterative Probabilistic Herding (constant)", getProbabilisticHerdingSolver leaf),
   ("Iterative Herding", getIterativeHerdingSolver leaf),
   ("Iterative Probabilistic Herding (cubic)", getCubicIterativeHerdingSolver leaf)]

/-- The kernel of `initialise_solvers` from the drawn rows `idx`, `none` if its length scale is NaN; `/repo/coreax/benchmark_util.py:142-147`. -/
noncomputable def benchKernel {n d : ℕ} (idx : Fin (min n 300) → Fin n) (x : Fin n → Vec d) : Except Err (Option (KExpr d)) :=
  match medianHeuristic (fun t => x (idx t)) with
  | none => .ok none
  | some l => match (KExpr.squaredExponential l 1 : KExpr d).check with
    | .error e => .error e
    | .ok () => .ok (some (.squaredExponential l 1))

/-- `initialise_solvers`; `/repo/coreax/benchmark_util.py:117-354`. -/
noncomputable def initialiseSolvers {n d : ℕ} (idx : Fin (min n 300) → Fin n) (x : Fin n → Vec d) (g : ℤ) (leaf : Option ℤ) :
    Except Err (Option (KExpr d) × List (String × (ℤ → Except Err BenchSolver))) :=
  match benchKernel idx x with
  | .error e => .error e
  | .ok k => .ok (k, solverFactories n g leaf)

section Reduce
variable {X : Type*} [Zero X]

/-- The draws of `IterativeKernelHerding` on `n` rows in iteration `i` of the refinement: `t_schedule[i]` (a traced index is clamped to the last entry) or `temperature`;
`/repo/coreax/solvers/coresubset.py:398-405`. `choice i` is `jr.choice` with the key folded with `i`. -/
noncomputable def iterativeDraw {n : ℕ} (p : IterParams) (choice : ℕ → SingleChoice n) (i : ℕ) : Option (Draw n ℝ) :=
  if p.probabilistic then
    some (softmaxDraw (choice i) (match p.schedule with
      | none => p.temperature
      | some l => l.getD (min i (l.length - 1)) 0))
  else none

/-- `IterativeKernelHerding.reduce` without a solver state, with the defaults `unique=True` and `block_size=None`; `/repo/coreax/benchmark_util.py:66-85`. -/
noncomputable def iterativeHerding (big : ℝ) (k : X → X → ℝ) (p : IterParams) (choice : ∀ n, ℕ → SingleChoice n) (size : ℕ) : BaseSolver X ℝ size := fun n _ d =>
  match herdingReduceIterative big k (iterativeDraw p (choice n)) true (.leaf none) size d none (List.finRange _) p.iterations with
  | .error e => .error e
  | .ok r => .ok r.1

/-- `KernelHerding(_size, kernel).reduce`: the defaults `unique=True`, `block_size=None`, `probabilistic=False`; `/repo/coreax/benchmark_util.py:183`. -/
noncomputable def defaultHerding (big : ℝ) (k : X → X → ℝ) (size : ℕ) : BaseSolver X ℝ size := fun _ _ d =>
  match herdingReduce big k none true (.leaf none) size d none (List.finRange _) with
  | .error e => .error e
  | .ok r => .ok r.1

/-- The results of the solvers that are not a `MapReduce`, where `other` gives those of the solvers that are not kernel herding. -/
noncomputable def benchSolve (big : ℝ) (k : X → X → ℝ) (choice : ∀ n, ℕ → SingleChoice n) (other : BaseConfig → ∀ size, BaseSolver X ℝ size) (b : BaseConfig) (size : ℕ) :
    BaseSolver X ℝ size :=
  match b.method, b.iter with
  | .kernelHerding, _ => defaultHerding big k size
  | .iterativeHerding, some p => iterativeHerding big k p choice size
  | _, _ => other b size

/-- `solver.reduce(data)` for a solver of the dictionary, where `solve` gives the results of the solvers that are not a `MapReduce`. The recursion of `MapReduce` is cut off after `fuel` rounds. -/
def benchReduce {n : ℕ} [NeZero n] (solve : BaseConfig → ∀ size, BaseSolver X ℝ size) (tree : TreeIndices X ℝ) (fuel : ℕ) (s : BenchSolver) [NeZero s.base.size]
    (d : Data n X ℝ) : Option (Except Err (Data s.base.size ℤ ℝ)) :=
  match s.leaf with
  | none => some (solve s.base s.base.size n d)
  | some l => mrRun l.toNat (solve s.base s.base.size) tree fuel n d none

end Reduce

/-! ### `benchmark/david_benchmark.py` -/

/-- `coreset_size = 8_000 // (downsampling_factor**2)`; `/repo/benchmark/david_benchmark.py:96`. -/
def davidSize (factor : ℤ) : Except Err ℤ :=
  if factor ^ 2 = 0 then .error .zeroDivisionError else .ok (8000 / factor ^ 2)

/-- `over_sampling_factor = math.floor(math.log(data.shape[0], 4))`; `/repo/benchmark/david_benchmark.py:95` (rounding of `math.log` is not modelled); no rows: `ValueError`. -/
def davidOversampling (n : ℕ) : Except Err ℤ := if n = 0 then .error .valueError else .ok (Nat.log 4 n : ℕ)

end Coreax
