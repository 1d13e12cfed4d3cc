import Verif.Model.Softmax
import Verif.Model.Metrics

/-!
# Iterative probabilistic herding: keys, temperature schedules and the worked example

`/repo/coreax/solvers/coresubset.py:333-413` and `/repo/examples/iterative_probabilistic_kh.py:97-147`.
-/

namespace Coreax

/-- `jr.fold_in` and `jr.choice(key, n, (), p=probs, replace=False)`; `/repo/coreax/solvers/coresubset.py:346-349, 397-399` (external). -/
structure KeyOps (Key : Type*) (n : ℕ) where
  foldIn : Key → ℕ → Key
  choice : Key → (Fin n → Ext ℝ) → ℤ

/-- The fields `probabilistic`, `temperature` and `random_key` of `KernelHerding`; `/repo/coreax/solvers/coresubset.py:286-288`. -/
structure HerdingSettings (Key : Type*) where
  probabilistic : Bool
  temperature : ℝ
  key : Key

section
variable {Key X : Type*} {n : ℕ}

/-- How `selection_function` chooses; `/repo/coreax/solvers/coresubset.py:343-351`: `none` is `nanargmax`. -/
noncomputable def solverDraw (o : KeyOps Key n) (s : HerdingSettings Key) : Option (Draw n ℝ) :=
  if s.probabilistic then some (softmaxDraw (fun i p => o.choice (o.foldIn s.key i) p) s.temperature) else none

/-- `new_solver` of `refine_iteration`; `/repo/coreax/solvers/coresubset.py:396-404`. `t_schedule[i]` is a gather with a traced index, so that it is clamped
to the last entry of a schedule that is too short. -/
def iterationSettings (o : KeyOps Key n) (s : HerdingSettings Key) {L : ℕ} [NeZero L] (schedule : Option (Fin L → ℝ)) (i : ℕ) : HerdingSettings Key where
  probabilistic := s.probabilistic
  temperature := match schedule with
    | none => s.temperature
    | some T => T (gatherIdx L i)
  key := o.foldIn s.key i

variable [Zero X] [NeZero n]

/-- `KernelHerding.reduce_iterative` with its keys and temperatures; `/repo/coreax/solvers/coresubset.py:364-413`. -/
noncomputable def reduceIterativeKeyed (o : KeyOps Key n) (s : HerdingSettings Key) {L : ℕ} [NeZero L] (schedule : Option (Fin L → ℝ)) (big : ℝ) (k : X → X → ℝ)
    (unique : Bool) (bs : PyTree (Option ℤ)) (size : ℕ) (pre : Data n X ℝ) (state : Option (List ℝ)) (ord : List (Fin (size + (size - size)))) (iters : ℕ) :
    Except Err (Data size ℤ ℝ × List ℝ) :=
  herdingReduceIterative big k (fun i => solverDraw o (iterationSettings o s schedule i)) unique bs size pre state ord iters

/-- `iterative_refine_experiment`; `/repo/examples/iterative_probabilistic_kh.py:97-147`: without a schedule the temperatures are ones and the solver is deterministic
(lines 118-121); every iteration makes a new solver with the folded key, refines without a solver state, and records the MMD between the data and the coreset for the
kernel `mmdKernel`. The kernels (`get_kernels`) are parameters. -/
noncomputable def iterativeExperiment (o : KeyOps Key n) (key : Key) {L : ℕ} [NeZero L] (schedule : Option (Fin L → ℝ)) (big : ℝ) (k mmdKernel : X → X → ℝ)
    (size : ℕ) (pre : Data n X ℝ) (ord : List (Fin (size + (size - size)))) (iters : ℕ) : Except Err (Data size ℤ ℝ × (Fin iters → ℝ)) :=
  match (initialCoresubset 0 size n : Except Err (Data size ℤ ℝ)) with
  | .error e => .error e
  | .ok c =>
    forLoop iters (fun i (acc : Except Err (Data size ℤ ℝ × (Fin iters → ℝ))) =>
      match acc with
      | .error e => .error e
      | .ok (c, d) =>
        let temperature := match schedule with
          | none => 1
          | some T => T (gatherIdx L ((i : ℕ) : ℤ))
        match herdingRefine big k (solverDraw o ⟨schedule.isSome, temperature, o.foldIn key i⟩) true (.leaf none) size pre c none ord with
        | .error e => .error e
        | .ok r =>
          match mmdCompute big mmdKernel pre ⟨fun t => pre.data (gatherIdx n (r.1.data t)), r.1.weights⟩ (.leaf none) with
          | .error e => .error e
          | .ok v => .ok (r.1, Function.update d i v)) (.ok (c, fun _ => 0))

end

end Coreax
