import Verif.Model.Rounding

/-!
# The standard model of rounded arithmetic

A rounded operation returns its exact result with a relative error of at most `u` (no overflow, no underflow). A sum of several
numbers is evaluated by additions in any order and grouping.
-/

namespace Coreax.Spec

/-- `c` is a result of adding the numbers of the list with rounded additions, in some order and grouping. -/
inductive RSum (u : ℝ) : List ℝ → ℝ → Prop
  | one (x : ℝ) : RSum u [x] x
  | add {l r : List ℝ} {a b c : ℝ} : RSum u l a → RSum u r b → |c - (a + b)| ≤ u * |a + b| → RSum u (l ++ r) c
  | perm {l l' : List ℝ} {c : ℝ} : l.Perm l' → RSum u l c → RSum u l' c

/-- The contract of the operations. In dot products the products may be rounded or exact (fused multiply-add). -/
structure Rounding (u : ℝ) (o : FloatOps ℝ) : Prop where
  zero : o.zero = 0
  two : o.two = 2
  add : ∀ a b, |o.add a b - (a + b)| ≤ u * |a + b|
  sub : ∀ a b, |o.sub a b - (a - b)| ≤ u * |a - b|
  mul : ∀ a b, |o.mul a b - a * b| ≤ u * |a * b|
  div : ∀ a b, b ≠ 0 → |o.div a b - a / b| ≤ u * |a / b|
  sum : ∀ {n : ℕ} (f : Fin (n + 1) → ℝ), RSum u (List.ofFn f) (o.sum f)
  matvec : ∀ {a b : ℕ} (M : Fin a → Fin (b + 1) → ℝ) (v : Fin (b + 1) → ℝ) (i : Fin a),
    ∃ p : Fin (b + 1) → ℝ, (∀ j, |p j - M i j * v j| ≤ u * |M i j * v j|) ∧ RSum u (List.ofFn p) (o.matvec M v i)
  dot : ∀ {n : ℕ} (f g : Fin (n + 1) → ℝ),
    ∃ p : Fin (n + 1) → ℝ, (∀ j, |p j - f j * g j| ≤ u * |f j * g j|) ∧ RSum u (List.ofFn p) (o.dot f g)
  root : ∀ a, |o.root a - Real.sqrt (max 0 a)| ≤ u * Real.sqrt (max 0 a)

/-- `c` differs from `x` by at most `p` roundings: `x (1-u)^p ≤ c ≤ x / (1-u)^p`. -/
def Near (u : ℝ) (p : ℕ) (x c : ℝ) : Prop := (1 - u) ^ p * x ≤ c ∧ (1 - u) ^ p * c ≤ x

end Coreax.Spec
