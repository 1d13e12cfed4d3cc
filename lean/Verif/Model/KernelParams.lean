import Verif.Model.ExtKernel
import Verif.Model.Util
import Mathlib.Analysis.SpecialFunctions.Pow.Real
import Mathlib.Analysis.SpecialFunctions.Trigonometric.Basic

/-!
# Kernel parameters that need not be numbers

`Model/Kernel.lean` takes the parameters of a kernel to be numbers.  The classes take any float, so here the parameters may be infinite or
NaN as well, and the constructors and `compute_elementwise` are modelled with IEEE rules.  The points are numbers.  Rounding, overflow
and the sign of zero are not modelled.
-/

namespace Coreax

namespace Ext

/-- `x <= y` for floats: false as soon as one side is NaN. -/
noncomputable def leX : Ext ℝ → Ext ℝ → Bool
  | nan, _ => false
  | _, nan => false
  | a, b => !(lt b a)

/-- `jnp.exp`. -/
noncomputable def expX : Ext ℝ → Ext ℝ
  | nan => nan
  | ninf => fin 0
  | fin x => fin (Real.exp x)
  | pinf => pinf

/-- `jnp.sin`: NaN at infinity. -/
noncomputable def sinX : Ext ℝ → Ext ℝ
  | fin x => fin (Real.sin x)
  | _ => nan

/-- `b ** e` for floats with `b` not negative (IEEE `pow`: `x ** 0 == 1` and `1 ** y == 1`, also for NaN). -/
noncomputable def powX (b e : Ext ℝ) : Ext ℝ :=
  if e = fin 0 ∨ b = fin 1 then fin 1
  else match b, e with
    | nan, _ => nan
    | _, nan => nan
    | fin b, fin e => if b = 0 ∧ e < 0 then pinf else fin (b ^ e)
    | fin b, pinf => if b < 1 then fin 0 else pinf
    | fin b, ninf => if b < 1 then pinf else fin 0
    | pinf, fin e => if e < 0 then fin 0 else pinf
    | pinf, pinf => pinf
    | pinf, ninf => fin 0
    | ninf, _ => nan

end Ext

/-- Kernel objects whose float parameters may be any float; the fields are in the order of the classes;
`/repo/coreax/kernels/scalar_valued.py:42-43, 84-86, 155-156, 213-214, 263-264, 333-334, 393-395, 468-470, 545-547, 683-684`,
`/repo/coreax/kernels/base.py:592-595, 629, 652, 710-711`.  Stein kernels are left out. -/
inductive PKernel
  | const (c : Ext ℝ)
  | linear (s c : Ext ℝ)
  | polynomial (s c : Ext ℝ) (n : PyNum)
  | exponential (l s : Ext ℝ)
  | laplacian (l s : Ext ℝ)
  | squaredExponential (l s : Ext ℝ)
  | pcimq (l s : Ext ℝ)
  | rationalQuadratic (l s a : Ext ℝ)
  | matern (l s : Ext ℝ) (n : PyNum)
  | periodic (l s p : Ext ℝ)
  | poisson (r s : Ext ℝ)
  | power (k : PKernel) (n : PyNum)
  | add (a b : PKernel)
  | mul (a b : PKernel)

/-- `if v <= 0: raise ValueError`. -/
noncomputable def checkPosX (v : Ext ℝ) : Except Err Unit := if Ext.leX v (.fin 0) then .error .valueError else .ok ()

/-- `if v < 0: raise ValueError`. -/
noncomputable def checkNonnegX (v : Ext ℝ) : Except Err Unit := if Ext.lt v (.fin 0) then .error .valueError else .ok ()

/-- The `__check_init__` methods, inner kernels first (they are constructed first);
`/repo/coreax/kernels/scalar_valued.py:45-50, 88-96, 158-163, 216-221, 266-271, 336-341, 397-404, 472-479, 549-554, 686-691`,
`/repo/coreax/kernels/base.py:597-603, 654-661`. -/
noncomputable def PKernel.check : PKernel → Except Err Unit
  | .const c => checkNonnegX c
  | .linear s c => do checkPosX s; checkNonnegX c
  | .polynomial s c n => do checkPosX s; checkNonnegX c; checkIntGe 2 n
  | .exponential l s => do checkPosX l; checkPosX s
  | .laplacian l s => do checkPosX l; checkPosX s
  | .squaredExponential l s => do checkPosX l; checkPosX s
  | .pcimq l s => do checkPosX l; checkPosX s
  | .rationalQuadratic l s a => do checkPosX l; checkPosX s; checkNonnegX a
  | .matern l s n => do checkPosX l; checkPosX s; checkIntGe 0 n
  | .periodic l s _ => do checkPosX l; checkPosX s
  | .poisson r s => do (if Ext.leX r (.fin 0) || Ext.leX (.fin 1) r then .error .valueError else .ok ()); checkPosX s
  | .power k n => do k.check; checkIntGe 1 n
  | .add a b => do a.check; b.check
  | .mul a b => do a.check; b.check

/-! ### Constructors of composite kernels -/

/-- What may be handed over as an inner kernel. -/
inductive KArg
  | kernel (k : PKernel)
  | other

/-- `PowerKernel(base, power)`: the check of the class itself comes before the one of its base class (`equinox` runs
`__check_init__` along the method resolution order); `/repo/coreax/kernels/base.py:631-637, 654-661`. -/
def powerInit (base : KArg) (n : PyNum) : Except Err PKernel :=
  match checkIntGe 1 n with
  | .error e => .error e
  | .ok _ => match base with
    | .kernel k => .ok (.power k n)
    | .other => .error .typeError

/-- `AdditiveKernel(a, b)` (and `ProductKernel`, with the other constructor); `/repo/coreax/kernels/base.py:713-722`. -/
def duoInit (make : PKernel → PKernel → PKernel) : KArg → KArg → Except Err PKernel
  | .kernel a, .kernel b => .ok (make a b)
  | _, _ => .error .typeError

/-! ### Values -/

section
variable {d : ℕ}

/-- `MaternKernel.compute_elementwise` with `_compute_summation_term`; `/repo/coreax/kernels/scalar_valued.py:481-522`. -/
noncomputable def maternParams (l s : Ext ℝ) (p : ℕ) (x y : Vec d) : Ext ℝ :=
  let body := .fin (Real.sqrt (2 * p + 1) * nrm x y) / l
  let factor := s * s * Ext.expX (-body) * .fin (p.factorial : ℝ) / .fin ((2 * p).factorial : ℝ)
  let summation : Ext ℝ :=
    if 0 < p then
      ∑ i ∈ Finset.range (p + 1),
        .fin (((p + i).factorial : ℝ) / (i.factorial * (p - i).factorial)) * extPow (.fin 2 * body) ((p - i : ℕ) : ℤ)
    else .fin 1
  factor * summation

/-- `compute_elementwise`; `/repo/coreax/kernels/scalar_valued.py:52-54, 98-100, 165-169, 223-227, 273-277, 343-347, 406-416, 507-522, 556-568, 693-699`,
`/repo/coreax/kernels/base.py:605-607, 663-665, 738-742, 776-782`.  Squares of parameters are written as products.  A product kernel with equal
factors squares the value, which is the product with itself for all floats. -/
noncomputable def PKernel.compute : PKernel → Vec d → Vec d → Ext ℝ
  | .const c, _, _ => c
  | .linear s c, x, y => s * .fin (vdot x y) + c
  | .polynomial s c n, x, y => s * extPow (.fin (vdot x y) + c) n.toInt
  | .exponential l s, x, y => s * Ext.expX (.fin (-nrm x y) / (.fin 2 * (l * l)))
  | .laplacian l s, x, y => s * Ext.expX (.fin (-nrm1 x y) / (.fin 2 * (l * l)))
  | .squaredExponential l s, x, y => s * Ext.expX (.fin (-sqDist x y) / (.fin 2 * (l * l)))
  | .pcimq l s, x, y => s / Ext.sqrtX (.fin 1 + .fin (sqDist x y) / (.fin 2 * (l * l)))
  | .rationalQuadratic l s a, x, y => s * Ext.powX (.fin 1 + .fin (sqDist x y) / (.fin 2 * a * (l * l))) (-a)
  | .matern l s n, x, y => maternParams l s n.toInt.toNat x y
  | .periodic l s p, x, y =>
    let v := Ext.sinX (.fin (Real.pi * nrm x y) / p)
    s * Ext.expX (.fin (-2) * (v * v) / (l * l))
  | .poisson r s, x, y => s / (.fin 1 - .fin 2 * r * .fin (Real.cos (nrm x y)) + r * r)
  | .power k n, x, y => extPow (k.compute x y) n.toInt
  | .add a b, x, y => a.compute x y + b.compute x y
  | .mul a b, x, y => a.compute x y * b.compute x y

end

/-- The result of `median_heuristic` as a float; `/repo/coreax/kernels/util.py:50-72`. -/
noncomputable def medianFloat {n d : ℕ} (x : Fin n → Vec d) : Ext ℝ :=
  match medianHeuristic x with
  | some v => .fin v
  | none => .nan

end Coreax
