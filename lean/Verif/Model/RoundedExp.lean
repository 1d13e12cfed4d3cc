import Verif.Model.RoundedPcimq

/-!
# The three exponential kernels with rounded arithmetic

`ExponentialKernel`, `LaplacianKernel` and `SquaredExponentialKernel` (`/repo/coreax/kernels/scalar_valued.py:165-169, 223-227, 273-277`) operation by operation.
`ex` is `jnp.exp`, `pw n` is `· ** n`.
-/

namespace Coreax

/-- `jnp.linalg.norm(jnp.subtract(x, y))`; `/repo/coreax/kernels/scalar_valued.py:168`: the root of a sum of squares. -/
def flNorm (o : FloatOps ℝ) {d : ℕ} (x y : Vec d) : ℝ := o.root (flSqDist o x y)

/-- `jnp.linalg.norm(jnp.subtract(x, y), ord=1)`; `/repo/coreax/kernels/scalar_valued.py:226`. (The size of a number is exact.) -/
def flNorm1 (o : FloatOps ℝ) {d : ℕ} (x y : Vec d) : ℝ := o.sum fun i => |o.sub (x i) (y i)|

/-- `self.output_scale * jnp.exp(-distance / (2 * self.length_scale**2))`; `/repo/coreax/kernels/scalar_valued.py:167-169, 225-227, 275-277`. -/
def flExpKernel (o : FloatOps ℝ) (pw : ℕ → ℝ → ℝ) (ex : ℝ → ℝ) (l s distance : ℝ) : ℝ := o.mul s (ex (o.div (-distance) (flScale o pw l)))

/-- The kernels of the form `s exp(-distance / (2 l²))`. -/
inductive ExpKind
  | exponential
  | laplacian
  | squaredExponential

/-- `compute_elementwise` of the three classes in exact arithmetic. -/
noncomputable def ExpKind.compute : ExpKind → ℝ → ℝ → {d : ℕ} → Vec d → Vec d → ℝ
  | .exponential, l, s, _ => (exponentialSem l s).compute
  | .laplacian, l, s, _ => (laplacianSem l s).compute
  | .squaredExponential, l, s, _ => (squaredExponentialSem l s).compute

/-- `compute_elementwise` of the three classes as computed; `/repo/coreax/kernels/scalar_valued.py:166-169, 224-227, 274-277`. -/
def flExp (o : FloatOps ℝ) (pw : ℕ → ℝ → ℝ) (ex : ℝ → ℝ) : ExpKind → ℝ → ℝ → {d : ℕ} → Vec d → Vec d → ℝ
  | .exponential, l, s, _, x, y => flExpKernel o pw ex l s (flNorm o x y)
  | .laplacian, l, s, _, x, y => flExpKernel o pw ex l s (flNorm1 o x y)
  | .squaredExponential, l, s, _, x, y => flExpKernel o pw ex l s (flSqDist o x y)

end Coreax
