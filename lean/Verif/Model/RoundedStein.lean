import Verif.Model.RoundedHerding

/-!
# Stein thinning with rounded arithmetic

`SteinThinning.reduce` of `/repo/coreax/solvers/coresubset.py` with the arithmetic operations as parameters (`FloatOps`).
-/

namespace Coreax

variable {X : Type*} [Zero X] {n : ℕ} [NeZero n] {m : ℕ}

/-- The objective of `selection_function`; `/repo/coreax/solvers/coresubset.py:537-540`.  The step number is converted exactly; `lap` and `logp` are the
arrays of numbers that were computed before the loop (zero without regularisation). -/
noncomputable def flSteinObjective (o : FloatOps ℝ) (diag lap logp : Fin n → ℝ) (i : ℕ) (pen : Fin n → Ext ℝ) : Fin n → Ext ℝ :=
  fun j => flExt o.sub (· - ·)
    (flExt o.add (· + ·) (flExt o.add (· + ·) (.fin (diag j)) (flExt o.mul (· * ·) (.fin o.two) (pen j))) (.fin (lap j)))
    (flExt o.mul (· * ·) (.fin ((i : ℝ) + 1)) (.fin (logp j)))

/-- `_greedy_body` with the selection of Stein thinning, for a coreset that starts empty (all index weights are zero, so nothing is subtracted);
`/repo/coreax/solvers/coresubset.py:173-217, 529-540`. -/
noncomputable def flSteinBody (o : FloatOps ℝ) (k : X → X → ℝ) (diag lap logp : Fin n → ℝ) (data : Fin n → X) (weights : Fin n → ℝ) (unique : Bool)
    (ord : List (Fin m)) (i : Fin m) (s : GreedyState n m ℝ) : GreedyState n m ℝ :=
  let new := nanargmin (flSteinObjective o diag lap logp i (maskedPenalty weights unique ord (fun _ => 0) i s.idx s.pen))
  let updated : Fin n → Ext ℝ := fun j => flExt o.add (· + ·) (s.pen j) (kernelColumn k data new j)
  { idx := Function.update s.idx i new
    pen := if unique then setAt updated new Ext.pinf else updated
    size := s.size + 1 }

/-- `SteinThinning.reduce`; `/repo/coreax/solvers/coresubset.py:125-226, 474-551`. The initial penalty is zero times a kernel mean with zero weights, hence
zero (`C05_mean_zero_weights`).  `diag` is the array `stein_kernel_diagonal` of line 507, which is computed by another call than the columns `k`. -/
noncomputable def flSteinReduce (o : FloatOps ℝ) (k : X → X → ℝ) (diag lap logp : Fin n → ℝ) (unique : Bool) (size : ℕ) (pre : Data n X ℝ)
    (ord : List (Fin size)) : Except Err (Data size ℤ ℝ) :=
  if size > n then .error .valueError
  else
    let s := forLoop size (flSteinBody o k diag lap logp pre.data pre.weights unique ord) ⟨fun _ => 0, fun _ => .fin o.zero, 0⟩
    .ok ⟨s.idx, fun _ => 1⟩

end Coreax
