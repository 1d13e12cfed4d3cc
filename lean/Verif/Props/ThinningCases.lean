import Verif.Props.ThinningReduce

/-!
# Concrete cases for kernel thinning and Compress++ (C19, C20, C21)
-/

namespace Coreax

open Spec

/-- The two index lists of a halving. -/
def halfLists {h : ℕ} (p : (Fin h → ℤ) × (Fin h → ℤ)) : List ℤ × List ℤ := (List.ofFn p.1, List.ofFn p.2)

/-- A halving of six points in which the first and second pairs are swapped and the third is not. -/
example : halfLists (ktHalf (h := 3) (id : ℚ → ℚ) (fun a b : ℚ => a * b) (Ext.fin 2) (fun i => if i = 2 then 9 / 10 else 1 / 2)
    ![1, 2, 4, 3, 7, 5]) = ([1, 3, 4], [0, 2, 5]) := by decide +kernel

/-- With a pair of equal points first, nothing is swapped any more even for draws equal to zero; without it, everything
may be. -/
example : halfLists (ktHalf (h := 2) (id : ℚ → ℚ) (fun a b : ℚ => a * b) (Ext.fin 2) (fun _ => 0) ![1, 1, 4, 3])
      = ([0, 2], [1, 3]) ∧
    halfLists (ktHalf (h := 2) (id : ℚ → ℚ) (fun a b : ℚ => a * b) (Ext.fin 2) (fun _ => 0) ![1, 2, 4, 3])
      = ([1, 3], [0, 2]) := by decide +kernel

/-- The hypotheses of the swapping rule are met by the linear kernel on distinct neighbours. -/
example : (∀ v : ℝ, 0 ≤ v → Real.sqrt v * Real.sqrt v = v) ∧
    ∀ i : Fin 2, 0 < (![0, 1, 3, 5] : Fin 4 → ℝ) (pairAt i false) * (![0, 1, 3, 5] : Fin 4 → ℝ) (pairAt i false)
      + (![0, 1, 3, 5] : Fin 4 → ℝ) (pairAt i true) * (![0, 1, 3, 5] : Fin 4 → ℝ) (pairAt i true)
      - 2 * ((![0, 1, 3, 5] : Fin 4 → ℝ) (pairAt i false) * (![0, 1, 3, 5] : Fin 4 → ℝ) (pairAt i true)) := by
  refine ⟨fun v hv => Real.mul_self_sqrt hv, fun i => ?_⟩
  fin_cases i
  · change 0 < (0 : ℝ) * 0 + 1 * 1 - 2 * (0 * 1)
    norm_num
  · change 0 < (3 : ℝ) * 3 + 5 * 5 - 2 * (3 * 5)
    norm_num

/-- A partition of eight rows into four candidates. -/
example : (ktPartition (n := 9) (size := 2) (id : ℚ → ℚ) (fun a b : ℚ => a * b) (Ext.fin 2) (fun _ => 1 / 2)
    ![1, 2, 4, 3, 7, 5, 0, 9, 8] 2).map List.ofFn = [[3, 5], [1, 7], [2, 6], [0, 4]] := by decide +kernel

/-- The hypotheses of the theorems on `reduce` are met: seventeen points, the first four of them as random baseline, the
Gaussian-like kernel of constant diagonal. -/
example : ∃ f : Fin 4 → Fin 17, Function.Injective f ∧
    ktReduce (n := 17) (size := 4) 1000 (fun a b : ℝ => Real.exp (-(a - b) ^ 2)) (fun a b : ℝ => Real.exp (-2 * (a - b) ^ 2))
      (Ext.fin 2) (fun _ => 1 / 2) firstChoice (List.finRange _) 2 ⟨fun i => (i : ℝ), fun _ => 1⟩
      = .ok ⟨fun t => ((f t : ℕ) : ℤ), fun _ => 1⟩ := by
  obtain ⟨f, hf, h, -⟩ := C20_reduce_best (n := 17) (size := 4) 1000 (fun a b : ℝ => Real.exp (-(a - b) ^ 2))
    (fun a b : ℝ => Real.exp (-2 * (a - b) ^ 2)) (fun a b => by congr 1; ring) (Ext.fin 2) (fun _ => 1 / 2) firstChoice
    firstChoice_contract (List.finRange _) (fun t => List.mem_finRange t) 2 (by norm_num) ⟨fun i => (i : ℝ), fun _ => 1⟩
    (fun _ => one_pos) (fun i j => by simp)
  exact ⟨f, hf, h⟩

/-- Parameters meeting the contract. -/
noncomputable def firstParams : KTParams ℝ where
  big := 1000
  k := fun a b => Real.exp (-(a - b) ^ 2)
  sk := fun a b => Real.exp (-2 * (a - b) ^ 2)
  c := Ext.fin 2
  u := fun _ => 1 / 2
  choice := fun _ _ => firstChoice
  ord := fun _ => List.finRange _
  halvings := fun l size => Nat.log 2 (l / size)

theorem firstParams_contract : KTContract firstParams where
  choice := fun _ _ => firstChoice_contract
  ord := fun _ t => List.mem_finRange t
  halvings := fun l size h0 hs => by
    have : NeZero size := ⟨h0.ne'⟩
    have : NeZero l := ⟨by omega⟩
    exact (C19_depth hs).1

/-- Compress++ on seventeen points with `g = 1` and a coreset of the largest admissible size eight; size nine is refused. -/
example : (∃ f : Fin 8 → Fin 17, Function.Injective f ∧
      compressPlusPlus (size := 8) firstParams 1 (fun _ => firstChoice) ⟨fun i : Fin 17 => (i : ℝ), fun _ => 1⟩
        = .ok (fun t => ((f t : ℕ) : ℤ))) ∧
    compressPlusPlus (size := 9) firstParams 1 (fun _ => firstChoice) ⟨fun i : Fin 17 => (i : ℝ), fun _ => 1⟩
      = .error .valueError :=
  ⟨C21_valid firstParams firstParams_contract 1 _ (fun _ => firstChoice_contract) _ (fun _ => one_pos) (by norm_num)
      (by norm_num) 2 (by norm_num) (by norm_num) (by norm_num),
    C21_error firstParams 1 _ _ 2 (by norm_num) (by norm_num)⟩

example (u : ℕ → ℝ) := C19_swap_rule (h := 2) Real.sqrt (fun v hv => Real.mul_self_sqrt hv) (fun a b : ℝ => a * b) 2 u ![0, 1, 3, 5] (fun i => by
  fin_cases i
  · change 0 < (0 : ℝ) * 0 + 1 * 1 - 2 * (0 * 1)
    norm_num
  · change 0 < (3 : ℝ) * 3 + 5 * 5 - 2 * (3 * 5)
    norm_num)

example (u : ℕ → ℚ) := C19_duplicate_stops_swapping (h := 3) id rfl (fun a b : ℚ => a * b) (Ext.fin 2) u ![1, 2, 4, 4, 7, 5] 1 (by decide +kernel) 2 (by decide)

example (u : ℕ → ℚ) := C19_balance (h := 3) id (fun a b : ℚ => a * b) (Ext.fin 2) u ![1, 2, 4, 4, 7, 5] (fun a b => a * b + 1) (fun a b => by ring)

example := C19_candidates (n := 9) (size := 2) (id : ℚ → ℚ) (fun a b : ℚ => a * b) (Ext.fin 2) (fun _ => 1 / 2) ![1, 2, 4, 3, 7, 5, 0, 9, 8] 2 (by norm_num) ![1, 7] (by decide +kernel)

example := C19_depth (n := 17) (size := 4) (by norm_num)

example := C20_choose (n := 4) (size := 2) 1000 (fun a b : ℝ => a * b) ⟨![1, 2, 4, 3], ![1, 0, 2, 1]⟩ (by simp [Fin.sum_univ_four]; norm_num) [![0, 1], ![2, 3]] (by simp)

example (u : ℕ → ℝ) := C20_reduce_valid (n := 17) (size := 4) 1000 (fun a b : ℝ => a * b) (fun a b : ℝ => Real.exp (-2 * (a - b) ^ 2)) (Ext.fin 2) u firstChoice firstChoice_contract
  (List.finRange _) (fun t => List.mem_finRange t) 2 (by norm_num) ⟨fun i => (i : ℝ), fun i => (i : ℝ) + 1⟩ (fun i => by positivity)

example (u : ℕ → ℝ) := C20_reduce_error (n := 3) (size := 4) 1000 (fun a b : ℝ => a * b) (fun a b : ℝ => a * b) (Ext.fin 2) u firstChoice [] 0 ⟨![1, 2, 3], ![1, 1, 1]⟩ (by norm_num)

end Coreax
