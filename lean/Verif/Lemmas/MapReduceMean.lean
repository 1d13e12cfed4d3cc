import Verif.Lemmas.MapReduce
import Verif.Lemmas.Kernel
import Mathlib.Analysis.Normed.Module.Basic

/-!
# Mean embeddings of partitions and of concatenated coresets
-/

set_option linter.unusedSectionVars false

namespace Coreax

open Spec

namespace MRMean

variable {X H : Type*} [Zero X] [NormedAddCommGroup H] [InnerProductSpace ℝ H]

/-- Concatenated coresets of unit weights: the mean is the mean of the means. -/
theorem concat_mean (φ : X → H) {L s : ℕ} (y : Fin L → Fin s → X) :
    meanEmbedding φ (fun p : Fin (L * s) => y (finProdFinEquiv.symm p).1 (finProdFinEquiv.symm p).2) (fun _ => 1)
      = (L : ℝ)⁻¹ • ∑ q, meanEmbedding φ (y q) (fun _ => 1) := by
  unfold meanEmbedding
  simp only [Finset.sum_const, Finset.card_univ, Fintype.card_fin, nsmul_eq_mul, mul_one, one_smul, Nat.cast_mul]
  rw [← Finset.smul_sum, smul_smul, mul_inv]
  congr 1
  rw [Equiv.sum_comp finProdFinEquiv.symm (fun p : Fin L × Fin s => φ (y p.1 p.2)), Fintype.sum_prod_type]

/-- Scaling all weights does not change the mean. -/
theorem mean_scale (φ : X → H) {n : ℕ} (x : Fin n → X) (w : Fin n → ℝ) {c : ℝ} (hc : c ≠ 0) :
    meanEmbedding φ x (fun i => c * w i) = meanEmbedding φ x w := by
  unfold meanEmbedding
  simp only [mul_smul]
  rw [← Finset.smul_sum, ← Finset.mul_sum, smul_smul, mul_inv, mul_comm c⁻¹, mul_assoc, inv_mul_cancel₀ hc, mul_one]

theorem norm_mean_le (φ : X → H) {n : ℕ} (x : Fin n → X) (w : Fin n → ℝ) (hw : ∀ i, 0 ≤ w i) (hW : 0 < ∑ i, w i) {B : ℝ}
    (hB : ∀ i, 0 < w i → ‖φ (x i)‖ ≤ B) : ‖meanEmbedding φ x w‖ ≤ B := by
  unfold meanEmbedding
  rw [norm_smul, norm_inv, Real.norm_of_nonneg hW.le, inv_mul_le_iff₀ hW, Finset.sum_mul]
  refine (norm_sum_le _ _).trans (Finset.sum_le_sum fun i _ => ?_)
  rw [norm_smul, Real.norm_of_nonneg (hw i)]
  rcases (hw i).lt_or_eq with h | h
  · exact mul_le_mul_of_nonneg_left (hB i h) (hw i)
  · rw [← h, zero_mul, zero_mul]

section Part
variable {n : ℕ} [NeZero n] (leaf : ℕ) (tree : TreeIndices X ℝ) (d : Data n X ℝ)

/-- The partition of the first round as a map: row `i` is in leaf `q i`. -/
def IsLeafMap (q : Fin n → Fin (nLeaves n leaf)) : Prop :=
  ∀ i : Fin n, ∃ t, tree (n + mrPadding n leaf) (nLeaves n leaf) (partRows n leaf) (d.pad (mrPadding n leaf)) (q i) t = ((i : ℕ) : ℤ)

/-- The total weight of the leaf of row `i`. -/
def leafMass {L : ℕ} (q : Fin n → Fin L) (w : Fin n → ℝ) (a : Fin L) : ℝ := ∑ j, if q j = a then w j else 0

variable {leaf tree d}

/-- Sums over the rows of all partitions. -/
theorem exists_leafMap (leaf : ℕ) (tree : TreeIndices X ℝ) (ht : TreeContract tree) (d : Data n X ℝ) :
    ∃ q : Fin n → Fin (nLeaves n leaf), IsLeafMap leaf tree d q ∧
      ∀ (M : Type _) [AddCommGroup M] [Module ℝ M] (c : Fin (nLeaves n leaf) → ℝ) (g : X → M),
        ∑ a, c a • ∑ t, (partData leaf tree d a).weights t • g ((partData leaf tree d a).data t) = ∑ i, (c (q i) * d.weights i) • g (d.data i) := by
  obtain ⟨F, hF, hbij⟩ := ht (n + mrPadding n leaf) (nLeaves n leaf) (partRows n leaf) (d.pad (mrPadding n leaf)) (add_mrPadding n leaf)
  let e := Equiv.ofBijective _ hbij
  have he : ∀ p, e p = F p.1 p.2 := fun _ => rfl
  refine ⟨fun i => (e.symm (Fin.castAdd _ i)).1, fun i => ⟨(e.symm (Fin.castAdd _ i)).2, ?_⟩, fun M _ _ c g => ?_⟩
  · rw [hF, ← he, Equiv.apply_symm_apply]
    rfl
  · have h1 : ∀ a, c a • ∑ t, (partData leaf tree d a).weights t • g ((partData leaf tree d a).data t)
        = ∑ t, (c a * (d.pad (mrPadding n leaf)).weights (F a t)) • g ((d.pad (mrPadding n leaf)).data (F a t)) := by
      intro a
      rw [Finset.smul_sum]
      refine Finset.sum_congr rfl fun t _ => ?_
      rw [smul_smul]
      simp only [partData, Data.getItem]
      rw [hF, gatherIdx_coe]
    simp only [h1]
    rw [← Fintype.sum_prod_type (f := fun p : Fin (nLeaves n leaf) × Fin (partRows n leaf) =>
        (c p.1 * (d.pad (mrPadding n leaf)).weights (F p.1 p.2)) • g ((d.pad (mrPadding n leaf)).data (F p.1 p.2)))]
    rw [← Equiv.sum_comp e.symm, Fin.sum_univ_add]
    have h2 : ∀ i, F (e.symm i).1 (e.symm i).2 = i := fun i => by rw [← he, Equiv.apply_symm_apply]
    simp only [h2]
    have h3 : ∀ i : Fin (mrPadding n leaf), (d.pad (mrPadding n leaf)).weights (Fin.natAdd n i) = 0 := fun i => by
      simp [Data.pad, zeroPad]
    simp only [h3, mul_zero, zero_smul, Finset.sum_const_zero, add_zero]
    refine Finset.sum_congr rfl fun i _ => ?_
    simp [Data.pad, zeroPad]

end Part

end MRMean

end Coreax
