import Mathlib.MeasureTheory.Constructions.Pi
import Mathlib.MeasureTheory.Measure.Lebesgue.Basic

/-!
# Specification: independent uniform draws
-/

namespace Coreax.Spec

open MeasureTheory

/-- The law of `n` independent draws that are uniform on `[0, 1]`. -/
noncomputable def uniformDraws (n : ℕ) : Measure (Fin n → ℝ) := Measure.pi fun _ => volume.restrict (Set.Icc 0 1)

/-- Finitely many draws as a sequence (the draws that are never used are zero). -/
noncomputable def drawSeq {n : ℕ} (u : Fin n → ℝ) : ℕ → ℝ := fun i => if h : i < n then u ⟨i, h⟩ else 0

end Coreax.Spec
