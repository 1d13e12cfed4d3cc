import Verif.Model.Pounce
import Verif.Model.Weights
import Verif.Model.ApproxHerding
import Verif.Model.Approximation
import Verif.Model.Score

/-!
# Model of the herding examples

`examples/herding_basic.py`, `herding_basic_weighted.py`, `herding_refine_weighted.py`, `herding_duo_composite_kernel.py`, `herding_approximate_gram_matrix.py`,
`herding_stein_weighted.py` and `herding_stein_weighted_ssm.py`: the coreset of kernel herding and the
discrepancy reported for it.  (The refine example does not refine; it re-weights as the weighted one does.)  The coresets computed for comparison do not influence it; drawing the data and the plots are left out.
-/

namespace Coreax

section
variable {d : ℕ}

/-- `SquaredExponentialKernel(length_scale=length_scale)`; `/repo/examples/herding_basic.py:92`, `/repo/examples/herding_basic_weighted.py:94`. -/
noncomputable def basicKernel (l : ℝ) : KExpr d := .squaredExponential l 1

/-- The sum of a kernel and a product of kernels; `/repo/examples/herding_duo_composite_kernel.py:92-94`. -/
noncomputable def duoKernel (l : ℝ) : KExpr d := .add (.squaredExponential l 1) (.mul (.pcimq l 1) (.laplacian l 1))

/-- The value of a finite number. -/
def Ext.finite? : Ext ℝ → Option ℝ
  | .fin v => some v
  | _ => none

/-- The finite values of an array, if all are finite. -/
def finiteValues {m : ℕ} (w : Fin m → Ext ℝ) : Option (Fin m → ℝ) :=
  if ∀ i, (w i).finite?.isSome then some fun i => (w i).finite?.getD 0 else none

/-- `main` up to `herding_mmd`; `/repo/examples/herding_basic.py:80-136`, `/repo/examples/herding_basic_weighted.py:80-141`, `/repo/examples/herding_refine_weighted.py:86-150` and
`/repo/examples/herding_duo_composite_kernel.py:78-117`.  `optimiser` is the solver and the regularisation of the weights optimiser, if there is one.  `idx` are the rows drawn
for the length scale.  The result is `none` for NaN, which arises from weights that are not finite; a length scale that is NaN (fewer than two rows) counts as an error. -/
noncomputable def herdingExample (big : ℝ) (make : ℝ → KExpr d) (optimiser : Option (SimplexQP ℝ × ℝ)) {n : ℕ} [NeZero n] (size : ℕ) (x : Fin n → Vec d)
    (idx : Fin (selectionSize n) → Fin n) (ord : List (Fin (size + (size - size)))) : Except Err (Option ℝ) :=
  match medianHeuristic (fun t => x (idx t)) with
  | none => .error .valueError
  | some l => do
    (make l).check
    let data : Data n (Vec d) ℝ := Data.ofArray x
    let (coreset, _) ← herdingReduce big (make l).sem.compute none true (.leaf none) size data none ord
    let points : Data size (Vec d) ℝ := ⟨(data.getItem coreset.data).data, coreset.weights⟩
    let weights ← match optimiser with
      | none => .ok (some coreset.weights)
      | some (qp, eps) => do
        let w ← mmdWeightsSolve (Y := Unit) qp big (make l).sem.compute ⟨data, none⟩ ⟨points, none⟩ eps (.leaf none)
        .ok (finiteValues w)
    (pounceReference l : KExpr d).check
    match weights with
    | none => .ok none
    | some w => do
      let v ← mmdCompute big (pounceReference l : KExpr d).sem.compute data ⟨points.data, w⟩ (.leaf none)
      .ok (some v)

/-- `main` up to `herding_mmd`; `/repo/examples/herding_approximate_gram_matrix.py:79-121`.  `draw` and `lstsq` are the random indices and the least squares solver of the approximation; the example
takes `kernelPoints = trainPoints = 500`. -/
noncomputable def approximateExample (big : ℝ) (draw : IndexDraw) (lstsq : RectLstsq ℝ) (kernelPoints trainPoints : ℕ) [NeZero kernelPoints] {n : ℕ} [NeZero n] (size : ℕ) (x : Fin n → Vec d)
    (idx : Fin (selectionSize n) → Fin n) (ord : List (Fin (size + (size - size)))) : Except Err ℝ :=
  match medianHeuristic (fun t => x (idx t)) with
  | none => .error .valueError
  | some l => do
    (basicKernel l : KExpr d).check
    let data : Data n (Vec d) ℝ := Data.ofArray x
    let k := (basicKernel l : KExpr d).sem.compute
    let (coreset, _) ← herdingReduceApprox big k (annchorRowMean draw lstsq big k kernelPoints trainPoints) true (.leaf none) size data ord
    (pounceReference l : KExpr d).check
    mmdCompute big (pounceReference l : KExpr d).sem.compute data ⟨(data.getItem coreset.data).data, coreset.weights⟩ (.leaf none)

/-- `main` up to `herding_mmd`; `/repo/examples/herding_stein_weighted.py:84-140` and `/repo/examples/herding_stein_weighted_ssm.py:89-150`.  `matcher` gives the score function for the rows drawn:
`kdeMatch big l` in the first, the result of training in the second.  The rest of the examples is that of the weighted example with a Stein kernel. -/
noncomputable def steinExample (big : ℝ) (matcher : ℝ → {m : ℕ} → (Fin m → Vec d) → Except Err (Vec d → Vec d)) (qp : SimplexQP ℝ) (eps : ℝ) {n : ℕ} [NeZero n] (size : ℕ) (x : Fin n → Vec d)
    (idx : Fin (selectionSize n) → Fin n) (ord : List (Fin (size + (size - size)))) : Except Err (Option ℝ) :=
  match medianHeuristic (fun t => x (idx t)) with
  | none => .error .valueError
  | some l => do
    let score ← matcher l fun t => x (idx t)
    herdingExample big (fun l => .stein (.pcimq l 1) score) (some (qp, eps)) size x idx ord

end

end Coreax
