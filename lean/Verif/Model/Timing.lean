import Verif.Model.Scripts
import Verif.Model.Random
import Mathlib.Analysis.Real.Sqrt

/-!
# Timing of functions: `speed_comparison_test` (`coreax/util.py`) and `tests/performance/run.py`

Durations are real numbers; from the pair of durations that `jit_test` measures in run `j` on, they are inputs; `jitRuns` is where the pairs come from. Rounding to the default floating type of JAX is not modelled.
-/

namespace Coreax

/-- The machine on which functions are measured: the clock (`time.perf_counter`), the number of compilations and the number of executions so far. -/
structure Machine where
  clock : ℝ
  compiled : ℕ
  executed : ℕ

/-- A call of a function made by `jax.jit`, until its result is ready: it is compiled unless this wrapper has compiled it before (external: the cache of `jax.jit`, for calls with the same arguments).
`compile` and `exec` are the durations of the compilations and the executions, which may all be different. -/
def jitCall (compile exec : ℕ → ℝ) (cached : Bool) (m : Machine) : Bool × Machine :=
  let m := if cached then m else { m with clock := m.clock + compile m.compiled, compiled := m.compiled + 1 }
  (true, { m with clock := m.clock + exec m.executed, executed := m.executed + 1 })

/-- `jit_test`; `/repo/coreax/util.py:260-300`: the wrapper `_fn` is new in each call of `jit_test`. -/
def jitTest (compile exec : ℕ → ℝ) (m : Machine) : (ℝ × ℝ) × Machine :=
  let startTime := m.clock
  let (cached, m) := jitCall compile exec false m
  let preDelta := m.clock - startTime
  let startTime := m.clock
  let (_, m) := jitCall compile exec cached m
  let postDelta := m.clock - startTime
  ((preDelta, postDelta), m)

/-- The loop over the runs of one function; `/repo/coreax/util.py:366-368`.  `gap j` is the time that passes after run `j` and before the next one. -/
noncomputable def jitRuns (compile exec gap : ℕ → ℝ) (r : ℕ) (m : Machine) : (Fin r → ℝ × ℝ) × Machine :=
  forLoop r (fun j s =>
    let t := jitTest compile exec s.2
    (Function.update s.1 j t.1, { t.2 with clock := t.2.clock + gap j })) (fun _ => (0, 0), m)

/-- Column 0 of `timings`: first run less second run, over the first normalisation value if there is one; `/repo/coreax/util.py:370-373`. -/
noncomputable def compilationTimes {r : ℕ} (norm : Option (Ext ℝ × Ext ℝ)) (runs : Fin r → ℝ × ℝ) (j : Fin r) : Ext ℝ :=
  match norm with
  | none => Ext.fin ((runs j).1 - (runs j).2)
  | some c => Ext.fin ((runs j).1 - (runs j).2) / c.1

/-- Column 1 of `timings`: second run, over the second normalisation value if there is one; `/repo/coreax/util.py:368, 374`. -/
noncomputable def executionTimes {r : ℕ} (norm : Option (Ext ℝ × Ext ℝ)) (runs : Fin r → ℝ × ℝ) (j : Fin r) : Ext ℝ :=
  match norm with
  | none => Ext.fin (runs j).2
  | some c => Ext.fin (runs j).2 / c.2

/-- `timings.mean(axis=0)`, one column; `/repo/coreax/util.py:377`. -/
noncomputable def meanF {r : ℕ} (x : Fin r → Ext ℝ) : Ext ℝ := Ext.sum x / Ext.fin (r : ℝ)

/-- `timings.std(axis=0)`, one column, with the default `ddof=0`; `/repo/coreax/util.py:378`. -/
noncomputable def stdF {r : ℕ} (x : Fin r → Ext ℝ) : Ext ℝ :=
  Ext.sqrt Real.sqrt (Ext.sum (fun j => (x j - meanF x) * (x j - meanF x)) / Ext.fin (r : ℝ))

/-- One entry of the second list of `run.py`: the statistics of one function; `/repo/coreax/util.py:377-379`, `/repo/tests/performance/run.py:61-67`. -/
noncomputable def runStats {r : ℕ} (norm : Option (Ext ℝ × Ext ℝ)) (runs : Fin r → ℝ × ℝ) : TestData ℝ where
  compilationMean := meanF (compilationTimes norm runs)
  executionMean := meanF (executionTimes norm runs)
  compilationStd := stdF (compilationTimes norm runs)
  executionStd := stdF (executionTimes norm runs)
  numRuns := r

/-- The name of function number `i`; `/repo/coreax/util.py:362-363`. `fmt` prints a number. -/
def setupName (fmt : ℕ → String) (i : ℕ) (name : Option String) : String := name.getD ("function_" ++ fmt (i + 1))

/-- `d[name] = v` for a dictionary kept as a list of pairs. -/
def dictSet {N V : Type} [DecidableEq N] (d : List (N × V)) (name : N) (v : V) : List (N × V) :=
  if name ∈ d.map Prod.fst then d.map fun p => if p.1 = name then (name, v) else p else d ++ [(name, v)]

/-- The dictionary built by a loop of assignments; `/repo/coreax/util.py:375`, and the dictionary comprehension of `/repo/tests/performance/run.py:60-69`. -/
def dictOf {N V : Type} [DecidableEq N] (l : List (N × V)) : List (N × V) := l.foldl (fun d p => dictSet d p.1 p.2) []

/-- `timings_dict` and `results` of `speed_comparison_test`: the rows measured for each function, by name and in order; `/repo/coreax/util.py:359-379`. -/
def timingsDict {V : Type} (fmt : ℕ → String) (setups : List (Option String × V)) : List (String × V) :=
  dictOf (setups.zipIdx.map fun p => (setupName fmt p.2 p.1.1, p.1.2))

/-- `/repo/tests/performance/run.py:32-70`: the results are normalised by the means of the normaliser, which is itself measured without normalisation. -/
noncomputable def performanceRun {r : ℕ} {N : Type} [DecidableEq N] (normaliser : Fin r → ℝ × ℝ) (setups : List (N × (Fin r → ℝ × ℝ))) : List (N × TestData ℝ) :=
  let s := runStats none normaliser
  dictOf (setups.map fun p => (p.1, runStats (some (s.compilationMean, s.executionMean)) p.2))

/-- The statistic of `scipy.stats.ttest_ind_from_stats(..., equal_var=False)`: means, standard deviations and numbers of observations. The library documents the deviations as
corrected ones (`ddof=1`). -/
noncomputable def welchT (m1 s1 : ℝ) (n1 : ℕ) (m2 s2 : ℝ) (n2 : ℕ) : ℝ := (m1 - m2) / Real.sqrt (s1 ^ 2 / n1 + s2 ^ 2 / n2)

end Coreax
