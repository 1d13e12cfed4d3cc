import Verif.Model.Kernel
import Verif.Model.Mean

/-!
# Model of the parts of `coreax/score_matching.py` that do not train a network

`KernelDensityMatching` and `convert_stein_kernel`. A `ScoreMatching` object is its `match` method; `SlicedScoreMatching` is in
`Verif/Model/SlicedScore.lean`.
-/

namespace Coreax

variable {d : ℕ}

/-- `getattr(kernel, "length_scale", 1.0)`; the attribute exists on the kernels that declare it;
`/repo/coreax/score_matching.py:472`, `/repo/coreax/kernels/scalar_valued.py:155, 213, 263, 333, 393, 468, 545`. -/
def KExpr.lengthScale : KExpr d → ℝ
  | .exponential l _ => l
  | .laplacian l _ => l
  | .squaredExponential l _ => l
  | .pcimq l _ => l
  | .rationalQuadratic l _ _ => l
  | .matern l _ _ => l
  | .periodic l _ _ => l
  | _ => 1

/-- `KernelDensityMatching.__init__`; `/repo/coreax/score_matching.py:363-371`. -/
noncomputable def kdeKernel (l : ℝ) : KExpr d := .squaredExponential l (1 / (Real.sqrt (2 * Real.pi) * l))

/-- `score_function` at a single point (a one-dimensional argument); `/repo/coreax/score_matching.py:401-436`: row mean of
the kernel over the data, mean of the gradients, quotient.  An array of points is mapped row by row. -/
noncomputable def kdeScore (big l : ℝ) {n : ℕ} (data : Fin n → Vec d) (x : Vec d) : Except Err (Vec d) :=
  let k : KSem d := (kdeKernel l).sem
  match computeMean big k.compute (Data.ofArray (K := ℝ) ![x]) (Data.ofArray data) .one (.leaf none) with
  | .error e => .error e
  | .ok means =>
    let gradients : Vec d := fun i => (∑ j, k.gradX x (data j) i) / n
    .ok (fun i => gradients i / means.getD 0 0)

/-- `KernelDensityMatching(length_scale).match(x)`: constructing the kernel checks its parameters.  Where the
score function fails (no data) the model continues with zero. -/
noncomputable def kdeMatch (big l : ℝ) {n : ℕ} (data : Fin n → Vec d) : Except Err (Vec d → Vec d) :=
  match (kdeKernel l : KExpr d).check with
  | .error e => .error e
  | .ok _ => .ok (fun x => match kdeScore big l data x with
    | .error _ => 0
    | .ok s => s)

/-- `convert_stein_kernel(x, kernel, score_matching)`; `/repo/coreax/score_matching.py:441-475`.  `sm` is
`score_matching.match(x)` when a score matching object is given. -/
noncomputable def convertStein (big : ℝ) {n : ℕ} (data : Fin n → Vec d) (kernel : KExpr d) (sm : Option (Vec d → Vec d)) :
    Except Err (KExpr d) :=
  match kernel, sm with
  | .stein base _, some s => .ok (.stein base s)
  | .stein base s, none => .ok (.stein base s)
  | k, some s => .ok (.stein k s)
  | k, none =>
    match kdeMatch big k.lengthScale data with
    | .error e => .error e
    | .ok s => .ok (.stein k s)

end Coreax
