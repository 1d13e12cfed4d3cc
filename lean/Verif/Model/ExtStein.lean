import Verif.Model.ExtKernel

/-!
# Stein thinning when the regularisation is not a number

`Model/ExtKernel.lean` takes the Laplace correction and the log density as numbers.  Here they, too, may be NaN or infinite: the density
estimate is NaN if a row is NaN or if the Cholesky factor of its precision matrix does not exist, the Laplace correction if the score has no derivative.
-/

namespace Coreax

variable {X K : Type*} [Zero X] [Field K] [LinearOrder K] {n : ℕ} [NeZero n]

/-- `regularised_log_pdf = regulariser_lambda * kde.logpdf(x.T)` and `laplace_correction`, or zero;
`/repo/coreax/solvers/coresubset.py:508-527`.  The sum of clipped second derivatives and `logpdf` are parameters. -/
def steinRegX (regularise : Bool) (lambda : Option K) (size : ℕ) (lap logpdf : Fin n → Ext K) : SteinReg n (Ext K) :=
  if regularise then
    let l : K := match lambda with
      | none => 1 / (size : K)
      | some l => l
    ⟨lap, fun j => Ext.fin l * logpdf j⟩
  else ⟨fun _ => Ext.fin 0, fun _ => Ext.fin 0⟩

/-- `selection_function` of `SteinThinning.refine`; `/repo/coreax/solvers/coresubset.py:529-540`. -/
def steinSelectX (diag lap logp : Fin n → Ext K) : Selection n K :=
  fun i pen _ => nanargmin fun j => ((diag j + Ext.fin 2 * pen j) + lap j) - Ext.fin (i + 1 : K) * logp j

/-- `SteinThinning.reduce`; `/repo/coreax/solvers/coresubset.py:474-551`.  (In `reduce` the coreset to be refined has `coreset_size`
points, so `len(coresubset)` is the coreset size.) -/
def steinReduceXR (big : K) (k : X → X → Ext K) (unique : Bool) (bs : PyTree (Option ℤ)) (size : ℕ)
    (pre : Data n X K) (reg : SteinReg n (Ext K)) (ord : List (Fin (size + (size - size)))) :
    Except Err (Data size ℤ K) :=
  match (initialCoresubset 0 size n : Except Err (Data size ℤ K)) with
  | .error e => .error e
  | .ok c => greedySelectionX big k pre bs unique (steinSelectX (fun j => k (pre.data j) (pre.data j)) reg.lap reg.logp) size c ord

end Coreax
