import Verif.Model.RoundedMatern

/-!
# The periodic and the Poisson kernel with rounded arithmetic

`compute_elementwise` of `PeriodicKernel` and `PoissonKernel` operation by operation. `sn`, `cs` are `jnp.sin`, `jnp.cos`, `pi` is the float `jnp.pi`.
-/

namespace Coreax

/-- `PeriodicKernel.compute_elementwise`; `/repo/coreax/kernels/scalar_valued.py:557-567`. -/
def flPeriodic (o : FloatOps ℝ) (pw : ℕ → ℝ → ℝ) (sn ex : ℝ → ℝ) (pi l s p : ℝ) {d : ℕ} (x y : Vec d) : ℝ :=
  o.mul s (ex (o.div (o.mul (-o.two) (pw 2 (sn (o.div (o.mul pi (flNorm o x y)) p)))) (pw 2 l)))

/-- The denominator of `PoissonKernel.compute_elementwise`; `/repo/coreax/kernels/scalar_valued.py:696-698`. -/
def flPoissonBody (o : FloatOps ℝ) (pw : ℕ → ℝ → ℝ) (cs : ℝ → ℝ) (r : ℝ) {d : ℕ} (x y : Vec d) : ℝ :=
  o.add (o.sub 1 (o.mul (o.mul o.two r) (cs (flNorm o x y)))) (pw 2 r)

/-- `PoissonKernel.compute_elementwise`; `/repo/coreax/kernels/scalar_valued.py:694-699`. -/
def flPoisson (o : FloatOps ℝ) (pw : ℕ → ℝ → ℝ) (cs : ℝ → ℝ) (r s : ℝ) {d : ℕ} (x y : Vec d) : ℝ := o.div s (flPoissonBody o pw cs r x y)

/-- The periodic kernel evaluated as above, the other kernels by `leaf`. -/
def periodicLeaf (o : FloatOps ℝ) (pw : ℕ → ℝ → ℝ) (sn ex : ℝ → ℝ) (pi : ℝ) {d : ℕ} (leaf : KExpr d → Vec d → Vec d → ℝ) : KExpr d → Vec d → Vec d → ℝ
  | .periodic l s p => flPeriodic o pw sn ex pi l s p
  | k => leaf k

end Coreax
