import Verif.Model.Basic
import Mathlib.Analysis.SpecialFunctions.Pow.Real
import Mathlib.Analysis.SpecialFunctions.Trigonometric.Basic
import Mathlib.Analysis.Calculus.FDeriv.Basic
import Mathlib.Data.Real.Sign

/-!
# Model of `coreax/kernels/base.py` and `coreax/kernels/scalar_valued.py`

A kernel object is an expression (`KExpr`); its four elementwise methods (`compute`, `grad_x`, `grad_y`,
`divergence_x_grad_y`) are the fields of `KSem`.  Points are vectors with `d` coordinates, arithmetic is exact.  A
division by zero is `0` in Lean and `inf`/`nan` in JAX: theorems about values therefore carry the hypothesis that no
division by zero happens.  `jax.grad`/`jax.jacrev` are the Fréchet derivative (trusted; meaningful where it exists).
-/

namespace Coreax

/-- A vector with `d` coordinates. -/
abbrev Vec (d : ℕ) := Fin d → ℝ

/-- Python numbers as arguments (`bool` is an `int`). -/
inductive PyNum where
  | int (z : ℤ)
  | float (r : ℝ)

/-- The number as a real. -/
def PyNum.toReal : PyNum → ℝ
  | .int z => (z : ℝ)
  | .float r => r

/-- The integer value of an integer argument (floats are rejected before it is used). -/
def PyNum.toInt : PyNum → ℤ
  | .int z => z
  | .float _ => 0

/-- The four elementwise methods of a kernel object; `/repo/coreax/kernels/base.py:157-390`. -/
structure KSem (d : ℕ) where
  /-- `compute_elementwise` -/
  compute : Vec d → Vec d → ℝ
  /-- `grad_x_elementwise` -/
  gradX : Vec d → Vec d → Vec d
  /-- `grad_y_elementwise` -/
  gradY : Vec d → Vec d → Vec d
  /-- `divergence_x_grad_y_elementwise` -/
  div : Vec d → Vec d → ℝ

/-- Kernel objects.  `LocallyPeriodicKernel` is `locallyPeriodic` below. -/
inductive KExpr (d : ℕ) where
  | const (c : ℝ)
  | linear (scale const : ℝ)
  | polynomial (scale const : ℝ) (degree : PyNum)
  | exponential (len scale : ℝ)
  | laplacian (len scale : ℝ)
  | squaredExponential (len scale : ℝ)
  | pcimq (len scale : ℝ)
  | rationalQuadratic (len scale weighting : ℝ)
  | matern (len scale : ℝ) (degree : PyNum)
  | periodic (len scale period : ℝ)
  | poisson (index scale : ℝ)
  | power (base : KExpr d) (n : PyNum)
  | add (a b : KExpr d)
  | mul (a b : KExpr d)
  | stein (base : KExpr d) (score : Vec d → Vec d)

/-- `LocallyPeriodicKernel.__init__`; `/repo/coreax/kernels/scalar_valued.py:638-656`. -/
def locallyPeriodic {d : ℕ} (plen pscale period slen sscale : ℝ) : KExpr d :=
  .mul (.periodic plen pscale period) (.squaredExponential slen sscale)

section checks

/-- Positivity checks `if v <= 0: raise ValueError`. -/
noncomputable def checkPos (v : ℝ) : Except Err Unit := if v ≤ 0 then .error .valueError else .ok ()

/-- Non-negativity checks `if v < 0: raise ValueError`. -/
noncomputable def checkNonneg (v : ℝ) : Except Err Unit := if v < 0 then .error .valueError else .ok ()

/-- `if not isinstance(v, int) or v < lo: raise ValueError`. -/
def checkIntGe (lo : ℤ) : PyNum → Except Err Unit
  | .int z => if z < lo then .error .valueError else .ok ()
  | .float _ => .error .valueError

/-- The `__check_init__` methods, inner kernels first (they are constructed first);
`/repo/coreax/kernels/scalar_valued.py:45-50, 88-96, 158-163, 216-221, 266-271, 336-341, 397-404, 472-479, 549-554, 686-691`,
`/repo/coreax/kernels/base.py:597-603, 654-661`. -/
noncomputable def KExpr.check {d : ℕ} : KExpr d → Except Err Unit
  | .const c => checkNonneg c
  | .linear s c => do checkPos s; checkNonneg c
  | .polynomial s c n => do checkPos s; checkNonneg c; checkIntGe 2 n
  | .exponential l s => do checkPos l; checkPos s
  | .laplacian l s => do checkPos l; checkPos s
  | .squaredExponential l s => do checkPos l; checkPos s
  | .pcimq l s => do checkPos l; checkPos s
  | .rationalQuadratic l s a => do checkPos l; checkPos s; checkNonneg a
  | .matern l s n => do checkPos l; checkPos s; checkIntGe 0 n
  | .periodic l s _ => do checkPos l; checkPos s
  | .poisson r s => do (if r ≤ 0 ∨ 1 ≤ r then .error .valueError else .ok ()); checkPos s
  | .power k n => do k.check; checkIntGe 1 n
  | .add a b => do a.check; b.check
  | .mul a b => do a.check; b.check
  | .stein k _ => k.check

/-- Operands of the overloaded operators. -/
inductive PyObj (d : ℕ) where
  | kernel (k : KExpr d)
  | num (v : PyNum)
  | other

/-- `__add__` (and `__radd__`, which delegates to it); `/repo/coreax/kernels/base.py:70-85`. -/
noncomputable def KExpr.addOp {d : ℕ} (self : KExpr d) : PyObj d → Except Err (KExpr d)
  | .num v =>
    match checkNonneg v.toReal with
    | .error e => .error e
    | .ok _ => .ok (.add self (.const v.toReal))
  | .kernel k => .ok (.add self k)
  | .other => .error .valueError

/-- `__mul__` (and `__rmul__`); `/repo/coreax/kernels/base.py:87-100`. -/
noncomputable def KExpr.mulOp {d : ℕ} (self : KExpr d) : PyObj d → Except Err (KExpr d)
  | .num v =>
    match checkNonneg v.toReal with
    | .error e => .error e
    | .ok _ => .ok (.mul self (.const v.toReal))
  | .kernel k => .ok (.mul self k)
  | .other => .error .valueError

/-- `__pow__`; `/repo/coreax/kernels/base.py:102-112`.  Anything but a number is not an `int`. -/
def KExpr.powOp {d : ℕ} (self : KExpr d) : PyObj d → Except Err (KExpr d)
  | .num v =>
    match checkIntGe 1 v with
    | .error e => .error e
    | .ok _ => .ok (.power self v)
  | _ => .error .valueError

end checks

section values
variable {d : ℕ}

/-- `squared_distance`; `/repo/coreax/util.py:197-212`. -/
def sqDist (x y : Vec d) : ℝ := ∑ i, (x i - y i) * (x i - y i)

/-- `jnp.linalg.norm(jnp.subtract(x, y))`. -/
noncomputable def nrm (x y : Vec d) : ℝ := Real.sqrt (∑ i, (x i - y i) ^ 2)

/-- `jnp.linalg.norm(jnp.subtract(x, y), ord=1)`. -/
def nrm1 (x y : Vec d) : ℝ := ∑ i, |x i - y i|

/-- `jnp.dot(x, y)`. -/
def vdot (x y : Vec d) : ℝ := ∑ i, x i * y i

/-- `jax.grad(f)` (trusted to be the gradient where `f` is differentiable). -/
noncomputable def autoGrad (f : Vec d → ℝ) (x : Vec d) : Vec d := fun i => fderiv ℝ f x (Pi.single i 1)

/-- `jax.jacrev(f).trace()` (trusted likewise). -/
noncomputable def autoTrace (f : Vec d → Vec d) (x : Vec d) : ℝ := ∑ i, fderiv ℝ f x (Pi.single i 1) i

/-- The default gradients and divergence of the base class; `/repo/coreax/kernels/base.py:295, 328, 389-390`. -/
noncomputable def KSem.ofCompute (k : Vec d → Vec d → ℝ) : KSem d where
  compute := k
  gradX x y := autoGrad (fun x' => k x' y) x
  gradY x y := autoGrad (fun y' => k x y') y
  div x y := autoTrace (fun x' => autoGrad (fun y' => k x' y') y) x

/-- `_Constant`; `/repo/coreax/kernels/base.py:605-619`.  The zero gradients have shape `()` in the code (see `gradIsVec`). -/
def constSem (c : ℝ) : KSem d := ⟨fun _ _ => c, fun _ _ => 0, fun _ _ => 0, fun _ _ => 0⟩

/-- `LinearKernel`; `/repo/coreax/kernels/scalar_valued.py:52-67`. -/
def linearSem (s c : ℝ) : KSem d where
  compute x y := s * vdot x y + c
  gradX _ y := fun i => s * y i
  gradY x _ := fun i => s * x i
  div _ _ := s * d

/-- `PolynomialKernel`; `/repo/coreax/kernels/scalar_valued.py:98-133`. -/
noncomputable def polynomialSem (s c : ℝ) (n : ℤ) : KSem d where
  compute x y := s * (vdot x y + c) ^ n
  gradX x y := fun i => s * n * y i * (vdot x y + c) ^ (n - 1)
  gradY x y := fun i => s * n * x i * (vdot x y + c) ^ (n - 1)
  div x y :=
    let dot := vdot x y
    let body := dot + c
    s * n * (((n - 1 : ℤ) : ℝ) * dot * body ^ (n - 2) + d * body ^ (n - 1))

/-- `ExponentialKernel`; `/repo/coreax/kernels/scalar_valued.py:165-195`. -/
noncomputable def exponentialSem (l s : ℝ) : KSem d :=
  let gy : Vec d → Vec d → Vec d := fun x y i =>
    let dist := nrm x y
    let factor := 2 * l ^ 2
    s * (x i - y i) * Real.exp (-dist / factor) / (factor * dist)
  { compute := fun x y => s * Real.exp (-nrm x y / (2 * l ^ 2))
    gradX := fun x y => -gy x y
    gradY := gy
    div := fun x y =>
      let dist := nrm x y
      let factor := 2 * l ^ 2
      let e := Real.exp (-dist / factor)
      let first : Vec d := fun i => (-e * (x i - y i) / dist ^ 2) * (1 / dist + 1 / factor)
      let second := e / dist
      (s / factor) * (vdot first (x - y) + d * second) }

/-- `LaplacianKernel`; `/repo/coreax/kernels/scalar_valued.py:223-245`. -/
noncomputable def laplacianSem (l s : ℝ) : KSem d :=
  let k : Vec d → Vec d → ℝ := fun x y => s * Real.exp (-nrm1 x y / (2 * l ^ 2))
  let gy : Vec d → Vec d → Vec d := fun x y i => Real.sign (x i - y i) / (2 * l ^ 2) * k x y
  { compute := k
    gradX := fun x y => -gy x y
    gradY := gy
    div := fun x y => -(d : ℝ) * k x y / (4 * l ^ 4) }

/-- `SquaredExponentialKernel`; `/repo/coreax/kernels/scalar_valued.py:273-294`. -/
noncomputable def squaredExponentialSem (l s : ℝ) : KSem d :=
  let k : Vec d → Vec d → ℝ := fun x y => s * Real.exp (-sqDist x y / (2 * l ^ 2))
  let gy : Vec d → Vec d → Vec d := fun x y i => (x i - y i) / l ^ 2 * k x y
  { compute := k
    gradX := fun x y => -gy x y
    gradY := gy
    div := fun x y =>
      let scale := 1 / l ^ 2
      scale * k x y * (d - scale * sqDist x y) }

/-- `SquaredExponentialKernel.get_sqrt_kernel`; `/repo/coreax/kernels/scalar_valued.py:296-315`. -/
noncomputable def sqrtKernel (l s : ℝ) (dim : ℕ) : KExpr d :=
  .squaredExponential (l / Real.sqrt 2) (Real.sqrt s * (2 / (Real.pi * l ^ 2)) ^ ((dim : ℝ) / 4))

/-- `PCIMQKernel`; `/repo/coreax/kernels/scalar_valued.py:343-371`. -/
noncomputable def pcimqSem (l s : ℝ) : KSem d :=
  let k : Vec d → Vec d → ℝ := fun x y => s / Real.sqrt (1 + sqDist x y / (2 * l ^ 2))
  let gy : Vec d → Vec d → Vec d := fun x y i => s * (x i - y i) / (2 * l ^ 2) * (k x y / s) ^ 3
  { compute := k
    gradX := fun x y => -gy x y
    gradY := gy
    div := fun x y =>
      let k := k x y / s
      let scale := 2 * l ^ 2
      s / scale * (d * k ^ 3 - 3 * k ^ 5 * sqDist x y / scale) }

/-- `RationalQuadraticKernel`; `/repo/coreax/kernels/scalar_valued.py:406-441`. -/
noncomputable def rationalQuadraticSem (l s a : ℝ) : KSem d :=
  let gy : Vec d → Vec d → Vec d := fun x y i =>
    (s * (x i - y i) / l ^ 2) * (1 + sqDist x y / (2 * a * l ^ 2)) ^ (-a - 1)
  { compute := fun x y => s * (1 + sqDist x y / (2 * a * l ^ 2)) ^ (-a)
    gradX := fun x y => -gy x y
    gradY := gy
    div := fun x y =>
      let sq := sqDist x y
      let power := a + 1
      let dv := a * l ^ 2
      let body := 1 + sq / (2 * dv)
      let factor := s / l ^ 2
      let first := factor * body ^ (-power)
      let second := -(factor * power * sq / dv) * body ^ (-(power + 1))
      d * first + second }

/-- `MaternKernel.compute_elementwise` with `_compute_summation_term`; `/repo/coreax/kernels/scalar_valued.py:481-522`.
`factorial` is exact here (a gamma function in the code). -/
noncomputable def maternCompute (l s : ℝ) (p : ℕ) (x y : Vec d) : ℝ :=
  let body := Real.sqrt (2 * p + 1) * nrm x y / l
  let factor := s ^ 2 * Real.exp (-body) * p.factorial / (2 * p).factorial
  let summation : ℝ :=
    if 0 < p then
      ∑ i ∈ Finset.range (p + 1),
        ((p + i).factorial : ℝ) / (i.factorial * (p - i).factorial) * (2 * body) ^ (p - i)
    else 1
  factor * summation

/-- `PeriodicKernel`; `/repo/coreax/kernels/scalar_valued.py:556-613`. -/
noncomputable def periodicSem (l s p : ℝ) : KSem d :=
  let gy : Vec d → Vec d → Vec d := fun x y i =>
    let dist := nrm x y
    let body := Real.pi * dist / p
    (4 * (x i - y i) * s * Real.pi / (dist * p * l ^ 2)) * Real.sin body * Real.cos body
      * Real.exp (-(2 / l ^ 2) * Real.sin body ^ 2)
  { compute := fun x y => s * Real.exp (-2 * Real.sin (Real.pi * nrm x y / p) ^ 2 / l ^ 2)
    gradX := fun x y => -gy x y
    gradY := gy
    div := fun x y =>
      let dist := nrm x y
      let factor := Real.pi / p
      let body := factor * dist
      let outputFactor := 4 * factor * s / l ^ 2
      let f1 := 1 / dist
      let f2 := Real.sin body
      let f3 := Real.cos body
      let f4 := Real.exp (-(2 / l ^ 2) * f2 ^ 2)
      let first := f1 * f2 * f3 * f4
      let second : Vec d := fun i =>
        let g := (x i - y i) / dist;
        -g * f1 ^ 2 * f2 * f3 * f4 - g * factor * f1 * f2 ^ 2 * f4 + g * factor * f1 * f3 ^ 2 * f4
          - outputFactor * (x i - y i) * f1 ^ 2 * f2 ^ 2 * f3 ^ 2 * f4
      outputFactor * (d * first + vdot second (x - y)) }

/-- `PoissonKernel`; `/repo/coreax/kernels/scalar_valued.py:693-723`.  `compute` and the divergence use the norm, the
gradient works coordinatewise. -/
noncomputable def poissonSem (r s : ℝ) : KSem d :=
  let gy : Vec d → Vec d → Vec d := fun x y i =>
    (2 * s * r * Real.sin (x i - y i)) / (1 - 2 * r * Real.cos (x i - y i) + r ^ 2) ^ 2
  { compute := fun x y => s / (1 - 2 * r * Real.cos (nrm x y) + r ^ 2)
    gradX := fun x y => -gy x y
    gradY := gy
    div := fun x y =>
      let dist := nrm x y
      let dv := 1 - 2 * r * Real.cos dist + r ^ 2
      (2 * s * r * Real.cos dist) / dv ^ 2 - (8 * s * r ^ 2 * Real.sin dist ^ 2) / dv ^ 3 }

/-- `PowerKernel`; `/repo/coreax/kernels/base.py:663-699`. -/
noncomputable def powerSem (k : KSem d) (n : ℤ) : KSem d where
  compute x y := k.compute x y ^ n
  gradX x y := fun i => n * k.gradX x y i * k.compute x y ^ (n - 1)
  gradY x y := fun i => n * k.gradY x y i * k.compute x y ^ (n - 1)
  div x y :=
    let c := k.compute x y
    n * (c ^ (n - 1) * k.div x y + ((n - 1 : ℤ) : ℝ) * c ^ (n - 2) * vdot (k.gradX x y) (k.gradY x y))

/-- `AdditiveKernel`; `/repo/coreax/kernels/base.py:738-760`. -/
def addSem (a b : KSem d) : KSem d where
  compute x y := a.compute x y + b.compute x y
  gradX x y := fun i => a.gradX x y i + b.gradX x y i
  gradY x y := fun i => a.gradY x y i + b.gradY x y i
  div x y := a.div x y + b.div x y

/-- `ProductKernel`; `/repo/coreax/kernels/base.py:776-837`; `eq` is `first_kernel == second_kernel`. -/
def mulSem (eq : Bool) (a b : KSem d) : KSem d where
  compute x y := if eq then a.compute x y ^ 2 else a.compute x y * b.compute x y
  gradX x y := fun i =>
    if eq then 2 * a.gradX x y i * a.compute x y
    else a.gradX x y i * b.compute x y + b.gradX x y i * a.compute x y
  gradY x y := fun i =>
    if eq then 2 * a.gradY x y i * a.compute x y
    else a.gradY x y i * b.compute x y + b.gradY x y i * a.compute x y
  div x y :=
    if eq then 2 * (vdot (a.gradX x y) (a.gradY x y) + a.compute x y * a.div x y)
    else vdot (a.gradX x y) (b.gradY x y) + vdot (a.gradY x y) (b.gradX x y) + a.compute x y * b.div x y
      + b.compute x y * a.div x y

/-- `SteinKernel.compute_elementwise`; `/repo/coreax/kernels/scalar_valued.py:782-790`. -/
def steinCompute (k : KSem d) (score : Vec d → Vec d) (x y : Vec d) : ℝ :=
  k.div x y + vdot (k.gradX x y) (score y) + vdot (k.gradY x y) (score x) + k.compute x y * vdot (score x) (score y)

open Classical in
/-- The methods of a kernel object. -/
noncomputable def KExpr.sem : KExpr d → KSem d
  | .const c => constSem c
  | .linear s c => linearSem s c
  | .polynomial s c n => polynomialSem s c n.toInt
  | .exponential l s => exponentialSem l s
  | .laplacian l s => laplacianSem l s
  | .squaredExponential l s => squaredExponentialSem l s
  | .pcimq l s => pcimqSem l s
  | .rationalQuadratic l s a => rationalQuadraticSem l s a
  | .matern l s n => KSem.ofCompute (maternCompute l s n.toInt.toNat)
  | .periodic l s p => periodicSem l s p
  | .poisson r s => poissonSem r s
  | .power k n => powerSem k.sem n.toInt
  | .add a b => addSem a.sem b.sem
  | .mul a b => mulSem (decide (a = b)) a.sem b.sem
  | .stein k score => KSem.ofCompute (steinCompute k.sem score)

/-- Whether a gradient has shape `(d,)` rather than `()`: the constant kernel returns a scalar zero, and broadcasting
keeps a scalar only among scalars; `/repo/coreax/kernels/base.py:609-615, 667-681, 744-754, 784-814`. -/
def KExpr.gradIsVec : KExpr d → Bool
  | .const _ => false
  | .power k _ => k.gradIsVec
  | .add a b => a.gradIsVec || b.gradIsVec
  | .mul a b => a.gradIsVec || b.gradIsVec
  | _ => true

open Classical in
/-- Whether the divergence has shape `(d,)` rather than `()`.  `v.dot(w)` of a vector and a scalar is a vector, of two
vectors or two scalars a scalar; `/repo/coreax/kernels/base.py:683-699, 756-760, 816-837`.  For the Stein kernel the
default (trace) is used. -/
noncomputable def KExpr.divIsVec : KExpr d → Bool
  | .power k _ => k.divIsVec
  | .add a b => a.divIsVec || b.divIsVec
  | .mul a b => if a = b then a.divIsVec else (xor a.gradIsVec b.gradIsVec) || a.divIsVec || b.divIsVec
  | _ => false

/-- `c ** e` in floating point for an integer exponent: `0` to a negative power is infinite. -/
noncomputable def extZpow (c : ℝ) (e : ℤ) : Ext ℝ := if c = 0 ∧ e < 0 then .pinf else .fin (c ^ e)

/-- `PowerKernel.divergence_x_grad_y_elementwise` with floating point zero/infinity rules in the factor
`(n - 1) * compute ** (n - 2)`, for base value `c`, base divergence `dv` and `grad_x . grad_y = g`;
`/repo/coreax/kernels/base.py:684-699`. -/
noncomputable def powerDivExt (n : ℤ) (c dv g : ℝ) : Ext ℝ :=
  Ext.fin (n : ℝ) * (Ext.fin (c ^ (n - 1) * dv) + Ext.fin ((n - 1 : ℤ) : ℝ) * extZpow c (n - 2) * Ext.fin g)

end values

end Coreax
