import Verif.Model.IterativeHerding
import Verif.Model.Pounce
import Verif.Model.SlicedScore

/-!
# Model of further examples from the data to the results

`examples/iterative_probabilistic_kh.py`, `examples/pounce_map_reduce.py`, `examples/pounce_map_reduce_ssm.py`.
-/

namespace Coreax

variable {d : ℕ}

/-! ### `examples/iterative_probabilistic_kh.py` -/

/-- `get_kernels`; `/repo/examples/iterative_probabilistic_kh.py:71-94`: the rows `idx` are drawn without replacement.  The
median heuristic is NaN (`none`) only for fewer than two rows; that case is not modelled and stands as an error. -/
noncomputable def getKernels {n : ℕ} (rows : Fin n → Vec d) (idx : Fin (selectionSize n) → Fin n) : Except Err (KExpr d × KExpr d) :=
  match medianHeuristic (fun t => rows (idx t)) with
  | none => .error .valueError
  | some l =>
    match (KExpr.squaredExponential l 1 : KExpr d).check with
    | .error e => .error e
    | .ok () =>
      match (KExpr.squaredExponential l (1 / (l * Real.sqrt (2 * Real.pi))) : KExpr d).check with
      | .error e => .error e
      | .ok () => .ok (.squaredExponential l 1, .squaredExponential l (1 / (l * Real.sqrt (2 * Real.pi))))

/-- `iterative_refine_experiment` with its kernels; `/repo/examples/iterative_probabilistic_kh.py:97-147`.  The data are unweighted
(line 68). -/
noncomputable def experimentOnData {Key : Type*} {n : ℕ} [NeZero n] (o : KeyOps Key n) (key : Key) {L : ℕ} [NeZero L] (schedule : Option (Fin L → ℝ)) (big : ℝ)
    (size : ℕ) (rows : Fin n → Vec d) (idx : Fin (selectionSize n) → Fin n) (ord : List (Fin (size + (size - size)))) (iters : ℕ) :
    Except Err (Data size ℤ ℝ × (Fin iters → ℝ)) :=
  match getKernels rows idx with
  | .error e => .error e
  | .ok (kernel, mmdKernel) =>
    iterativeExperiment o key schedule big kernel.sem.compute mmdKernel.sem.compute size (Data.ofArray rows) ord iters

/-- `jnp.linspace(start, stop, num)` for `num > 1`. -/
def linspaceArray {K : Type*} [Field K] (start stop : K) (num : ℕ) : Fin num → K := fun i => start + (i : ℕ) * ((stop - start) / ((num : K) - 1))

/-- `t_schedules`; `/repo/examples/iterative_probabilistic_kh.py:202-206`. -/
noncomputable def experimentSchedules (nIter : ℕ) : List (Fin nIter → ℝ) :=
  [fun _ => 1 * (1 / 1000), fun _ => 1 * (1 / 10000), fun i => 1 / linspaceArray 1 100 nIter i ^ 3]

/-- `main`; `/repo/examples/iterative_probabilistic_kh.py:208-216`: the baseline with seed 0 and the probabilistic runs with the
seed of the experiment (`key0`, `key`).  Every run draws the rows for the length scale anew, with the same seed and so the same `idx`. -/
noncomputable def experimentMain {Key : Type*} {n : ℕ} [NeZero n] (o : KeyOps Key n) (key0 key : Key) (big : ℝ)
    (size : ℕ) (rows : Fin n → Vec d) (idx : Fin (selectionSize n) → Fin n) (ord : List (Fin (size + (size - size)))) (nIter : ℕ) [NeZero nIter] :
    Except Err ((Fin nIter → ℝ) × List (Fin nIter → ℝ)) :=
  match experimentOnData (L := nIter) o key0 none big size rows idx ord nIter with
  | .error e => .error e
  | .ok base =>
    match (experimentSchedules nIter).mapM (fun T => experimentOnData o key (some T) big size rows idx ord nIter) with
    | .error e => .error e
    | .ok probs => .ok (base.2, probs.map Prod.snd)

/-! ### `examples/pounce_map_reduce.py` and `examples/pounce_map_reduce_ssm.py` -/

/-- How the score function is learned from the length scale, the rows drawn for it and all rows. -/
abbrev ScoreLearner (d n : ℕ) : Type := ℝ → (Fin (selectionSize n) → Vec d) → (Fin n → Vec d) → Except Err (Vec d → Vec d)

/-- The density estimate on the drawn rows; `/repo/examples/pounce_map_reduce.py:122-128`. -/
noncomputable def kdeLearner (big : ℝ) (n : ℕ) : ScoreLearner d n := fun l sel _ => kdeMatch big l sel

/-- Sliced score matching on all rows; `/repo/examples/pounce_map_reduce_ssm.py:115-126`: 100 epochs, one random vector per row,
the analytic loss, `sigma=1.0`, `gamma=0.95`; by default (`/repo/coreax/score_matching.py:160-178`) with noise conditioning, 100 noise
levels and batches of 64. -/
noncomputable def ssmLearner {State Params : Type} (T : Trainer d State Params) {n : ℕ} [NeZero n] (z : Fin 64 → Vec d) (init : State)
    (v : Fin n → Fin 1 → Vec d) (draws : Fin 100 → Fin 64 → ℤ) : ScoreLearner d n :=
  fun _ _ x => .ok (ssmMatch T ⟨true, true, 100, 1, 95 / 100⟩ z init x v 100 draws)

/-- `mapped_herding_solver`'s base: `KernelHerding(coreset_size, kernel)`; `/repo/examples/pounce_map_reduce.py:133-139`. -/
noncomputable def videoBase (big : ℝ) (kernel : KExpr d) : BaseSolver (Vec d) ℝ 10 := fun _ _ x =>
  match herdingReduce big kernel.sem.compute none true (.leaf none) 10 x none (List.finRange _) with
  | .ok r => .ok r.1
  | .error e => .error e

/-- `main`; `/repo/examples/pounce_map_reduce.py:84-198`, `/repo/examples/pounce_map_reduce_ssm.py:84-196`: ten frames with leaves of
twenty.  `fuel` bounds the rounds of map-reduce (`none`: no result yet); otherwise as for `pounceMain`. -/
noncomputable def pounceMapReduceMain {F : Type} (big : ℝ) {n : ℕ} [NeZero n] (learn : ScoreLearner d n) (pca : (Fin n → F) → Fin n → Vec d)
    (tree : TreeIndices (Vec d) ℝ) (fuel : ℕ) (video : Fin (n + 1) → F) (idx : Fin (selectionSize n) → Fin n) :
    Option (Except ScriptErr (List F × ((Fin (selectionSize n) → ℕ) × (Fin (selectionSize n) → ℕ)) × ℝ)) :=
  let raw := dropFirst video
  let rows := pca raw
  let data : Data n (Vec d) ℝ := Data.ofArray rows
  match medianHeuristic (fun t => rows (idx t)) with
  | none => some (.error (.library .valueError))
  | some l =>
    match learn l (fun t => rows (idx t)) rows with
    | .error e => some (.error (.library e))
    | .ok score =>
      match (KExpr.squaredExponential l 1 : KExpr d).check with
      | .error e => some (.error (.library e))
      | .ok () =>
        match mrRun 20 (videoBase big (.stein (.squaredExponential l 1) score)) tree fuel n data none with
        | none => none
        | some (.error e) => some (.error (.library e))
        | some (.ok coreset) =>
          some (do
            liftErr (pounceReference l : KExpr d).check
            let mmd ← liftErr (mmdCompute big (pounceReference l : KExpr d).sem.compute data
              ⟨(data.getItem coreset.data).data, coreset.weights⟩ (.leaf none))
            let (shown, chart) ← videoOutputs raw (selectionSize n) coreset.data
            .ok (shown, chart, mmd))

end Coreax
