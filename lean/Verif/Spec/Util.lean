import Verif.Model.Kernel

/-!
# Specifications for the helpers: medians, pairs of points, units of time
-/

namespace Coreax.Spec

open Finset

/-- The number of ordered pairs of distinct indices whose points satisfy `p`. -/
noncomputable def pairCount {n : ℕ} {X : Type*} (x : Fin n → X) (p : X → X → Prop) : ℕ :=
  open Classical in (univ.filter fun q : Fin n × Fin n => q.1 ≠ q.2 ∧ p (x q.1) (x q.2)).card

/-- `v` is a median of the squared distances between the points: at least half of the pairs are at most `v`, and at least half at least `v`. -/
def IsMedianDistance {n d : ℕ} (x : Fin n → Vec d) (v : ℝ) : Prop :=
  pairCount x (fun _ _ => True) ≤ 2 * pairCount x (fun a b => ∑ i, (a i - b i) ^ 2 ≤ v) ∧
  pairCount x (fun _ _ => True) ≤ 2 * pairCount x (fun a b => v ≤ ∑ i, (a i - b i) ^ 2)

/-- `v` is the conventional median of the squared distances: the midpoint of the interval of all medians. -/
def IsMidMedianDistance {n d : ℕ} (x : Fin n → Vec d) (v : ℝ) : Prop :=
  ∃ a b, (∀ w, IsMedianDistance x w ↔ a ≤ w ∧ w ≤ b) ∧ a ≤ b ∧ v = (a + b) / 2

/-- At most one number is the conventional median. -/
theorem IsMidMedianDistance.unique {n d : ℕ} {x : Fin n → Vec d} {v w : ℝ} (hv : IsMidMedianDistance x v)
    (hw : IsMidMedianDistance x w) : v = w := by
  obtain ⟨a, b, h, hab, rfl⟩ := hv
  obtain ⟨a', b', h', hab', rfl⟩ := hw
  have ha := (h' a).1 ((h a).2 ⟨le_rfl, hab⟩)
  have hb := (h' b).1 ((h b).2 ⟨hab, le_rfl⟩)
  have ha' := (h a').1 ((h' a').2 ⟨le_rfl, hab'⟩)
  have hb' := (h b').1 ((h' b').2 ⟨hab', le_rfl⟩)
  have : a = a' := le_antisymm ha'.1 ha.1
  have : b = b' := le_antisymm hb.2 hb'.2
  simp [*]

end Coreax.Spec
