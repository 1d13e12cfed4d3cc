import Verif.Model.Greedy
import Verif.Model.Score
import Mathlib.Analysis.Calculus.Deriv.Basic

/-!
# Model of `SteinThinning` with its conversion of the kernel

`Verif/Model/Greedy.lean` models `SteinThinning.refine` after the regularisation vectors are known; here they are computed from the solver's
attributes.
-/

namespace Coreax

variable {d n m : ℕ}

/-- `kernel.score_function` of the result of `convert_stein_kernel` (always a `SteinKernel`, `C54_always_stein`). -/
def KExpr.scoreFunction : KExpr d → Vec d → Vec d
  | .stein _ s => s
  | _ => 0

/-- `_laplace_positive`; `/repo/coreax/solvers/coresubset.py:519-523`: sum of the positive parts of the diagonal of the Jacobian.  Forward
differentiation is taken to give derivatives. -/
noncomputable def laplacePositive (score : Vec d → Vec d) (x : Vec d) : ℝ :=
  ∑ i, max (deriv (fun t => score (Function.update x i t) i) (x i)) 0

/-- The attributes of `SteinThinning` that concern regularisation; `/repo/coreax/solvers/coresubset.py:465-472`. `logpdf` is
`gaussian_kde(x.T, weights, kde_bw_method).logpdf(x.T)` (external). -/
structure SteinOptions (n : ℕ) where
  regularise : Bool
  regulariserLambda : Option ℝ
  logpdf : Fin n → ℝ

/-- The regularisation vectors; `/repo/coreax/solvers/coresubset.py:508-527`. `m` is `len(coresubset)`. -/
noncomputable def steinRegularisation (o : SteinOptions n) (m : ℕ) (stein : KExpr d) (x : Fin n → Vec d) : Option (SteinReg n ℝ) :=
  if o.regularise then
    let lambda := match o.regulariserLambda with
      | none => 1 / (m : ℝ)
      | some l => l
    some ⟨fun j => laplacePositive stein.scoreFunction (x j), fun j => lambda * o.logpdf j⟩
  else none

/-- `SteinThinning.refine`; `/repo/coreax/solvers/coresubset.py:505-551`. `sm` is `self.score_matching.match(x)` when given. The converted
kernel enters the regularisation only; diagonal and penalty use `self.kernel`. -/
noncomputable def steinThinningRefine (big : ℝ) (kernel : KExpr d) (sm : Option (Vec d → Vec d)) (unique : Bool) (o : SteinOptions n)
    (bs : PyTree (Option ℤ)) (size : ℕ) [NeZero n] (pre : Data n (Vec d) ℝ) (c : Data m ℤ ℝ) (ord : List (Fin (m + (size - m)))) :
    Except Err (Data size ℤ ℝ) :=
  match convertStein big pre.data kernel sm with
  | .error e => .error e
  | .ok stein => steinRefine big kernel.sem.compute unique bs size pre c (steinRegularisation o m stein pre.data) ord

/-- `SteinThinning.reduce`; `/repo/coreax/solvers/coresubset.py:474-479`. -/
noncomputable def steinThinningReduce (big : ℝ) (kernel : KExpr d) (sm : Option (Vec d → Vec d)) (unique : Bool) (o : SteinOptions n)
    (bs : PyTree (Option ℤ)) (size : ℕ) [NeZero n] (pre : Data n (Vec d) ℝ) (ord : List (Fin (size + (size - size)))) :
    Except Err (Data size ℤ ℝ) :=
  match (initialCoresubset 0 size n : Except Err (Data size ℤ ℝ)) with
  | .error e => .error e
  | .ok c => steinThinningRefine big kernel sm unique o bs size pre c ord

end Coreax
