import Verif.Model.RoundedExp

/-!
# Kernels put together from others, with rounded arithmetic

`compute_elementwise` of `LinearKernel`, `PolynomialKernel`, `RationalQuadraticKernel` and of the kernels that `+`, `*` and `**` build, operation by operation.
-/

namespace Coreax

/-- The kernels whose evaluation is left to a parameter. -/
def KExpr.External {d : ℕ} : KExpr d → Prop
  | .matern _ _ _ => True
  | .periodic _ _ _ => True
  | .poisson _ _ => True
  | .stein _ _ => True
  | _ => False

/-- `self.output_scale * jnp.dot(x, y) + self.constant`; `/repo/coreax/kernels/scalar_valued.py:53-54`. -/
def flLinear (o : FloatOps ℝ) (s c : ℝ) {d : ℕ} (x y : Vec d) : ℝ := o.add (o.mul s (o.dot x y)) c

/-- `self.output_scale * (jnp.dot(x, y) + self.constant) ** self.degree`; `/repo/coreax/kernels/scalar_valued.py:99-100`. -/
def flPolynomial (o : FloatOps ℝ) (pw : ℕ → ℝ → ℝ) (s c : ℝ) (n : ℕ) {d : ℕ} (x y : Vec d) : ℝ := o.mul s (pw n (o.add (o.dot x y) c))

/-- `RationalQuadraticKernel.compute_elementwise`; `/repo/coreax/kernels/scalar_valued.py:407-416`. `rp b e` is `b ** e` with a real exponent. -/
def flRationalQuadratic (o : FloatOps ℝ) (pw : ℕ → ℝ → ℝ) (rp : ℝ → ℝ → ℝ) (l s a : ℝ) {d : ℕ} (x y : Vec d) : ℝ :=
  o.mul s (rp (o.add 1 (o.div (flSqDist o x y) (o.mul (o.mul o.two a) (pw 2 l)))) (-a))

open Classical in
/-- `compute_elementwise` of a kernel object, of any nesting; `/repo/coreax/kernels/base.py:606-607, 664-665, 739-742, 777-782`. `leaf` evaluates the kernels left out. -/
noncomputable def flKernel (o : FloatOps ℝ) (pw : ℕ → ℝ → ℝ) (rp : ℝ → ℝ → ℝ) (ex : ℝ → ℝ) {d : ℕ} (leaf : KExpr d → Vec d → Vec d → ℝ) :
    KExpr d → Vec d → Vec d → ℝ
  | .const c, _, _ => c
  | .linear s c, x, y => flLinear o s c x y
  | .polynomial s c n, x, y => flPolynomial o pw s c n.toInt.toNat x y
  | .exponential l s, x, y => flExp o pw ex .exponential l s x y
  | .laplacian l s, x, y => flExp o pw ex .laplacian l s x y
  | .squaredExponential l s, x, y => flExp o pw ex .squaredExponential l s x y
  | .pcimq l s, x, y => flPcimq o pw l s x y
  | .rationalQuadratic l s a, x, y => flRationalQuadratic o pw rp l s a x y
  | .power k n, x, y => pw n.toInt.toNat (flKernel o pw rp ex leaf k x y)
  | .add a b, x, y => o.add (flKernel o pw rp ex leaf a x y) (flKernel o pw rp ex leaf b x y)
  | .mul a b, x, y =>
    if a = b then pw 2 (flKernel o pw rp ex leaf a x y) else o.mul (flKernel o pw rp ex leaf a x y) (flKernel o pw rp ex leaf b x y)
  | .matern l s n, x, y => leaf (.matern l s n) x y
  | .periodic l s p, x, y => leaf (.periodic l s p) x y
  | .poisson r s, x, y => leaf (.poisson r s) x y
  | .stein k f, x, y => leaf (.stein k f) x y

end Coreax
