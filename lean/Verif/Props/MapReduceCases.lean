import Verif.Props.MapReduce
import Verif.Props.HerdingCases

/-!
# C22, C23: base solvers meeting the contract, concrete runs and limits of map-reduce
-/

set_option linter.unusedSectionVars false

namespace Coreax

open Spec

section
variable {X K : Type*} [Zero X] [Field K] [LinearOrder K] [IsStrictOrderedRing K]

/-- `KernelHerding` (deterministic, `unique=True`) as a base solver. -/
def herdingBase (big : K) (k : X → X → K) (bs : PyTree (Option ℤ)) (size : ℕ) : BaseSolver X K size := fun _ _ d =>
  match herdingReduce big k none true bs size d none (List.finRange _) with
  | .ok r => .ok r.1
  | .error e => .error e

/-- `SteinThinning` (`unique=True`, no regularisation) as a base solver. -/
def steinBase (big : K) (k : X → X → K) (bs : PyTree (Option ℤ)) (size : ℕ) : BaseSolver X K size := fun _ _ d =>
  steinReduce big k true bs size d none (List.finRange _)

/-- Kernel herding meets the contract of base solvers, and raises on fewer rows than points. -/
theorem C22_herding_base (big : K) (k : X → X → K) (bs : PyTree (Option ℤ)) (hbs : ValidBlock bs) (size : ℕ)
    (hsize : 0 < size) : BaseContract (herdingBase big k bs size) ∧
    ∀ (m : ℕ) [NeZero m] (d : Data m X K), m < size → herdingBase big k bs size m d = .error .valueError := by
  refine ⟨fun n _ d hpos => ?_, fun m _ d hm => ?_⟩
  · obtain ⟨f, st, h1, h2, h3⟩ := C11_reduce_valid big k none true bs hbs size hsize d (fun _ h => by cases h) none
      (List.finRange _) (List.mem_finRange) hpos
    refine ⟨f, fun _ => 1, ?_, h3 rfl, h2, fun _ => one_pos⟩
    unfold herdingBase
    rw [h1]
  · unfold herdingBase
    rw [C11_reduce_too_large big k none true bs size hm d none]

/-- Stein thinning meets the contract of base solvers, and raises on fewer rows than points. -/
theorem C22_stein_base (big : K) (k : X → X → K) (bs : PyTree (Option ℤ)) (hbs : ValidBlock bs) (size : ℕ)
    (hsize : 0 < size) : BaseContract (steinBase big k bs size) ∧
    ∀ (m : ℕ) [NeZero m] (d : Data m X K), m < size → steinBase big k bs size m d = .error .valueError := by
  refine ⟨fun n _ d hpos => ?_, fun m _ d hm => ?_⟩
  · obtain ⟨f, h1, h2, h3⟩ := C15_reduce_greedy big k true bs hbs size hsize d none
      (List.finRange _) (List.mem_finRange) hpos
    exact ⟨f, fun _ => 1, h1, h3 rfl, fun t => (h2 t).1.1, fun _ => one_pos⟩
  · exact C15_reduce_too_large big k true bs size hm d none _

example := C22_stein_base 1000 (fun a b : ℚ => a * b + 1) (.leaf none) (.inl rfl) 2 (by norm_num)

/-- The leaves in row order. -/
def rowTree (X K : Type*) : TreeIndices X K := fun _ _ rows _ q t => ((q * rows + t : ℕ) : ℤ)

/-- The leaves in reverse row order. -/
def revTree (X K : Type*) : TreeIndices X K := fun N _ rows _ q t => ((N - 1 - (q * rows + t) : ℕ) : ℤ)

theorem row_lt {nl rows : ℕ} (q : Fin nl) (t : Fin rows) : (q : ℕ) * rows + t < nl * rows := by
  have h1 : ((q : ℕ) + 1) * rows ≤ nl * rows := Nat.mul_le_mul_right _ q.2
  have h2 := t.2
  have e : ((q : ℕ) + 1) * rows = q * rows + rows := by ring
  omega

theorem rowTree_contract : TreeContract (rowTree X K) := by
  intro N nl rows d hN
  subst hN
  refine ⟨fun q t => ⟨q * rows + t, row_lt q t⟩, fun _ _ => rfl, ?_⟩
  rw [Fintype.bijective_iff_injective_and_card]
  refine ⟨fun a b h => ?_, by simp⟩
  apply finProdFinEquiv.injective
  apply Fin.ext
  have := congrArg Fin.val h
  simp only [finProdFinEquiv_apply_val] at this ⊢
  rw [mul_comm rows, mul_comm rows]
  omega

theorem revTree_contract : TreeContract (revTree X K) := by
  intro N nl rows d hN
  obtain ⟨F, hF, hb⟩ := rowTree_contract (X := X) (K := K) N nl rows d hN
  refine ⟨fun q t => (F q t).rev, fun q t => ?_, ?_⟩
  · have := hF q t
    have h2 : (q * rows + t : ℕ) = (F q t : ℕ) := by
      have h3 : (((q * rows + t : ℕ)) : ℤ) = (((F q t : ℕ)) : ℤ) := this
      exact_mod_cast h3
    simp only [revTree, Fin.val_rev]
    rw [h2]
    congr 1
    omega
  · exact Fin.revPerm.bijective.comp hb

end

/-- The indices of the result of a run. -/
def runIdx {s : ℕ} {K : Type*} : Option (Except Err (Data s ℤ K)) → Option (List ℤ)
  | some (.ok d) => some (List.ofFn d.data)
  | _ => none

/-- Fifteen weighted points. -/
def fifteenData : Data 15 ℚ ℚ := ⟨fun i => (i : ℚ) ^ 2, fun i => 1 + i⟩

/-- A run of three rounds with padding in the first one, and the hypotheses of `C22_valid`, which it meets. -/
example : runIdx (mrRun 4 (herdingBase 1000 invQuad (.leaf none) 2) (rowTree ℚ ℚ) 4 15 fifteenData none) = some [7, 14] ∧
    mrPadding 15 4 = 1 ∧ (∀ q, PosCount (partData 4 (rowTree ℚ ℚ) fifteenData q).weights 2) ∧
    BaseContract (herdingBase (1000 : ℚ) invQuad (.leaf none) 2) ∧ TreeContract (rowTree ℚ ℚ) :=
  ⟨by decide +kernel, by decide +kernel, by unfold PosCount; decide +kernel,
    (C22_herding_base _ _ _ (Or.inl rfl) 2 (by norm_num)).1, rowTree_contract⟩

/-- Nine points in decreasing order. -/
def nineData : Data 9 ℚ ℚ := ⟨fun i => 9 - (i : ℚ), fun _ => 1⟩

/-- Padding breaks C22 in general: nine positive values, `leaf_size=4`, `coreset_size=2` give four partitions of three rows
and three rows of padding.  As the values are positive, a spatial tree (which sorts one-dimensional data) puts the three
padding rows in one partition.  Whatever the base solver selects there, both indices are reported as the last row: -/
theorem C22_padding_repeats (base : BaseSolver ℚ ℚ 2) (r : Fin (nLeaves 9 4) → Data 2 ℤ ℚ)
    (_h : seqFin (nLeaves 9 4) (fun q => base (partRows 9 4) (partData 4 (revTree ℚ ℚ) nineData q)) = .ok r) :
    TreeContract (revTree ℚ ℚ) ∧ (∀ t, 0 < nineData.weights t) ∧
    mrIndices 4 (revTree ℚ ℚ) nineData r ⟨0, by decide +kernel⟩ = 8 ∧
    mrIndices 4 (revTree ℚ ℚ) nineData r ⟨1, by decide +kernel⟩ = 8 := by
  have key : ∀ t : Fin (partRows 9 4), partIdx 4 (revTree ℚ ℚ) nineData 0 t = 8 := by decide +kernel
  have e0 : (finProdFinEquiv.symm (⟨0, by decide +kernel⟩ : Fin (nLeaves 9 4 * 2))).1 = 0 := by decide +kernel
  have e1 : (finProdFinEquiv.symm (⟨1, by decide +kernel⟩ : Fin (nLeaves 9 4 * 2))).1 = 0 := by decide +kernel
  refine ⟨revTree_contract, fun _ => one_pos, ?_, ?_⟩
  · unfold mrIndices
    rw [e0]
    exact key _
  · unfold mrIndices
    rw [e1]
    exact key _

example := C22_padding_repeats (fun _ _ _ => .ok ⟨![0, 1], ![1, 1]⟩) (fun _ => ⟨![0, 1], ![1, 1]⟩) (seqFin_ok _ _ _ fun _ => rfl)

/-- and kernel herding with `unique=True` then returns the last row twice, although it does not even contain the values
(the padding zeros) that were selected. -/
theorem C22_padding_duplicates :
    runIdx (mrRun 4 (herdingBase 1000 (fun a b : ℚ => (10 - a) * (10 - b)) (.leaf none) 2) (revTree ℚ ℚ) 9 9 nineData none)
      = some [8, 8] := by decide +kernel

/-- The constructor accepts `leaf_size=3, coreset_size=2`, with which herding of four points never ends. -/
example : mrCheckInit 3 (some 2) = .ok () ∧ 3 / 2 < 2 ∧ 2 ≤ partRows 4 3 ∧ nLeaves 4 3 * 2 = 4 ∧
    runIdx (mrRun 3 (herdingBase 1000 invQuad (.leaf none) 2) (rowTree ℚ ℚ) 5 4 ⟨fun i => (i : ℚ), fun _ => 1⟩ none) = none := by
  decide +kernel

/-- With `leaf_size=6, coreset_size=5`, seven points raise `ValueError`: the partitions have four rows. -/
example : mrCheckInit 6 (some 5) = .ok () ∧ partRows 7 6 = 4 := by decide +kernel

example (d : Data 7 ℚ ℚ) : mrRun 6 (herdingBase 1000 invQuad (.leaf none) 5) (rowTree ℚ ℚ) 1 7 d none
    = some (.error .valueError) :=
  C23_raises 6 _ (C22_herding_base (1000 : ℚ) invQuad (.leaf none) (Or.inl rfl) 5 (by norm_num)).2 _ 0 (by norm_num)
    (by decide +kernel) d none

example := C22_valid 4 (by norm_num) (by norm_num) (herdingBase (1000 : ℚ) invQuad (.leaf none) 2) (C22_herding_base _ _ _ (Or.inl rfl) 2 (by norm_num)).1 (rowTree ℚ ℚ) rowTree_contract fifteenData
  (by norm_num) (by decide +kernel) (fun _ => by unfold PosCount; decide +kernel)

example := C22_enough_rows (size := 2) 4 (rowTree ℚ ℚ) rowTree_contract fifteenData (by decide +kernel) (by decide +kernel)

end Coreax
