import Verif.Model.Pounce
import Mathlib.Data.Fintype.Card

/-!
# C84: The number of rows drawn for the median heuristic

`generator.choice(..., replace=False)` in `/repo/examples/pounce.py:105-111` needs at most as many rows as there are.
-/

namespace Coreax

/-- C84: rows can be drawn without replacement whatever the length of the video; all of them are drawn up to a thousand, and a thousand from then on. -/
theorem C84_selection (n : ℕ) : (∃ idx : Fin (selectionSize n) → Fin n, Function.Injective idx) ∧
    (n ≤ 1000 → ∀ idx : Fin (selectionSize n) → Fin n, Function.Injective idx → Function.Surjective idx) ∧ (1000 ≤ n → selectionSize n = 1000) := by
  have h : selectionSize n ≤ n := min_le_left _ _
  refine ⟨⟨Fin.castLE h, Fin.castLE_injective h⟩, fun hn idx hidx => ?_, fun hn => min_eq_right hn⟩
  have e : selectionSize n = n := min_eq_left hn
  exact ((Fintype.bijective_iff_injective_and_card idx).2 ⟨hidx, by simp [e]⟩).2

example := (C84_selection 3).1
example := (C84_selection 3).2.1 (by norm_num) (fun i => i.castLE (min_le_left 3 1000)) (Fin.castLE_injective _)
example := (C84_selection 5000).2.2 (by norm_num)

end Coreax
