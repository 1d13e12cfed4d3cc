import Verif.Model.Rounding

/-!
# The kernel Stein discrepancy with rounded arithmetic

`KSD.compute` (`/repo/coreax/metrics.py:198-278`) with the arithmetic operations as parameters, on the blocked means of `Verif.Model.Rounding`.
-/

namespace Coreax

/-- `kde.logpdf(y.data.T).mean() / len(y)`, or `0.0`; `/repo/coreax/metrics.py:256, 265`. `num` turns an integer of the program into a number of the
arithmetic. The log-densities are external. -/
def flEntropic {F : Type*} (o : FloatOps F) (num : ℕ → F) {m : ℕ} : Option (Fin m → F) → F
  | none => o.zero
  | some l => o.div (o.div (o.sum l) (num m)) (num m)

/-- `_laplace_positive(y.data).sum() / len(y) ** 2`, or `0.0`; `/repo/coreax/metrics.py:255, 275`. The values of the operator are external. -/
def flLaplace {F : Type*} (o : FloatOps F) (num : ℕ → F) {m : ℕ} : Option (Fin m → F) → F
  | none => o.zero
  | some l => o.div (o.sum l) (num (m ^ 2))

/-- `KSD.compute`; `/repo/coreax/metrics.py:253-278`, with the converted kernel. -/
def flKSD {X F : Type*} [Zero X] (o : FloatOps F) (num : ℕ → F) (kp : X → X → F) {m : ℕ} (y : Data m X F) (bs : PyTree (Option ℤ))
    (logp lap : Option (Fin m → F)) : Except Err F :=
  match treeLeavesRepeat bs 2 with
  | [a, b] =>
    match flColumnMean o kp y y a b with
    | .error e => .error e
    | .ok s => .ok (o.root (o.sub (o.add s.1 (flLaplace o num lap)) (flEntropic o num logp)))
  | _ => .error .valueError

end Coreax
