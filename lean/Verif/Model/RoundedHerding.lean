import Verif.Model.Greedy
import Verif.Model.Rounding
import Mathlib.Data.Real.Basic

/-!
# Kernel herding with rounded arithmetic

`KernelHerding.reduce` of `/repo/coreax/solvers/coresubset.py` with the arithmetic operations as parameters (`FloatOps`), on top of the
rounded kernel means of `Verif.Model.Rounding`.
-/

namespace Coreax

/-- A rounded operation on numbers; infinities and NaN as in IEEE arithmetic. -/
def flExt (op : ℝ → ℝ → ℝ) (ieee : Ext ℝ → Ext ℝ → Ext ℝ) : Ext ℝ → Ext ℝ → Ext ℝ
  | .fin a, .fin b => .fin (op a b)
  | a, b => ieee a b

section
variable {X : Type*} [Zero X] {n : ℕ} [NeZero n] {m : ℕ}

/-- `residuals`; `/repo/coreax/solvers/coresubset.py:339-341`. The number of points is converted exactly. -/
noncomputable def flResidual (o : FloatOps ℝ) (rowMean : Fin n → ℝ) (pen : Fin n → Ext ℝ) (size : ℕ) : Fin n → Ext ℝ :=
  fun j => flExt o.sub (· - ·) (.fin (rowMean j)) (flExt o.div (· / ·) (pen j) (.fin (size : ℝ)))

/-- `_greedy_body` with the selection of herding, for a coreset that starts empty (all index weights are zero, so nothing is subtracted);
`/repo/coreax/solvers/coresubset.py:173-217, 333-351`. -/
noncomputable def flHerdingBody (o : FloatOps ℝ) (k : X → X → ℝ) (data : Fin n → X) (weights : Fin n → ℝ) (unique : Bool) (ord : List (Fin m))
    (rowMean : Fin n → ℝ) (i : Fin m) (s : GreedyState n m ℝ) : GreedyState n m ℝ :=
  let size := s.size + 1
  let new := nanargmax (flResidual o rowMean (maskedPenalty weights unique ord (fun _ => 0) i s.idx s.pen) size)
  let updated : Fin n → Ext ℝ := fun j => flExt o.add (· + ·) (s.pen j) (kernelColumn k data new j)
  { idx := Function.update s.idx i new
    pen := if unique then setAt updated new Ext.pinf else updated
    size := size }

/-- `KernelHerding.reduce` without a solver state; `/repo/coreax/solvers/coresubset.py:125-226, 290-362`. The initial penalty is zero times a kernel mean with
zero weights, hence zero (`C05_mean_zero_weights`). -/
noncomputable def flHerdingReduce (o : FloatOps ℝ) (k : X → X → ℝ) (unique : Bool) (bs : PyTree (Option ℤ)) (size : ℕ) (pre : Data n X ℝ)
    (ord : List (Fin size)) : Except Err (Data size ℤ ℝ × List ℝ) :=
  if size > n then .error .valueError
  else
    match flGramianRowMean o k pre bs with
    | .error e => .error e
    | .ok rm =>
      let s := forLoop size (flHerdingBody o k pre.data pre.weights unique ord (asVec n rm)) ⟨fun _ => 0, fun _ => .fin o.zero, 0⟩
      .ok (⟨s.idx, fun _ => 1⟩, rm)

end

end Coreax
