import Verif.Model.RoundedKernel

/-!
# The Matern kernel with rounded arithmetic

`MaternKernel.compute_elementwise` (`/repo/coreax/kernels/scalar_valued.py:481-522`) operation by operation. `fac` is `factorial` (the exponential of a log-gamma function,
so not exact), `np b k` is `b ** k` for a float array and an integer array, `ex` is `jnp.exp`.
-/

namespace Coreax

/-- `(jnp.sqrt(2 * self.degree + 1) * norm) / self.length_scale`; `/repo/coreax/kernels/scalar_valued.py:509-510`. (`2 * degree + 1` is an integer, exact.) -/
def flMaternBody (o : FloatOps ℝ) (l : ℝ) (p : ℕ) {d : ℕ} (x y : Vec d) : ℝ := o.div (o.mul (o.root (2 * p + 1)) (flNorm o x y)) l

/-- `_compute_summation_term`; `/repo/coreax/kernels/scalar_valued.py:501-505`. -/
def flMaternTerm (o : FloatOps ℝ) (np : ℝ → ℕ → ℝ) (fac : ℕ → ℝ) (p : ℕ) (body : ℝ) (i : ℕ) : ℝ :=
  o.mul (o.div (fac (p + i)) (o.mul (fac i) (fac (p - i)))) (np (o.mul o.two body) (p - i))

/-- `compute_elementwise`; `/repo/coreax/kernels/scalar_valued.py:508-522`. -/
def flMatern (o : FloatOps ℝ) (pw : ℕ → ℝ → ℝ) (np : ℝ → ℕ → ℝ) (fac : ℕ → ℝ) (ex : ℝ → ℝ) (l s : ℝ) (p : ℕ) {d : ℕ} (x y : Vec d) : ℝ :=
  let body := flMaternBody o l p x y
  let factor := o.div (o.mul (o.mul (pw 2 s) (ex (-body))) (fac p)) (fac (2 * p))
  let summation := if 0 < p then o.sum fun i : Fin (p + 1) => flMaternTerm o np fac p body i else 1
  o.mul factor summation

/-- The Matern kernel evaluated as above, the other kernels by `leaf`. -/
def maternLeaf (o : FloatOps ℝ) (pw : ℕ → ℝ → ℝ) (np : ℝ → ℕ → ℝ) (fac : ℕ → ℝ) (ex : ℝ → ℝ) {d : ℕ} (leaf : KExpr d → Vec d → Vec d → ℝ) : KExpr d → Vec d → Vec d → ℝ
  | .matern l s n => flMatern o pw np fac ex l s n.toInt.toNat
  | k => leaf k

end Coreax
