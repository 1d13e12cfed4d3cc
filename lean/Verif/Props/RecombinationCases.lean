import Verif.Props.TreeRecombination
import Mathlib.LinearAlgebra.FiniteDimensional.Basic
import Mathlib.LinearAlgebra.Dimension.Constructions

/-!
# Recombination: the hypotheses can be met, concrete runs, and a padding index in the output
-/

set_option linter.unusedSectionVars false

namespace Coreax

open Spec

variable {K : Type*} [Field K] [LinearOrder K] [IsStrictOrderedRing K]

/-- The left null space. -/
def leftNullSpace {n m : ℕ} (nodes : Fin n → Fin m → K) : Submodule K (Fin n → K) where
  carrier := {z | LeftNull nodes z}
  zero_mem' := fun l => by simp
  add_mem' := fun {a b} ha hb l => by
    have := ha l
    have := hb l
    simp only [Pi.add_apply, add_mul, Finset.sum_add_distrib, *, add_zero]
  smul_mem' := fun c {a} ha l => by
    have := ha l
    simp only [Pi.smul_apply, smul_eq_mul, mul_assoc, ← Finset.mul_sum, this, mul_zero]

/-- Every node matrix has a basis of its left null space in the stored form, so an exact resolver exists. -/
theorem exists_nullBasis {n m : ℕ} (nodes : Fin n → Fin m → K) : ∃ basis r, NullBasis nodes basis r := by
  let b := Module.finBasis K (leftNullSpace nodes)
  let r := Module.finrank K (leftNullSpace nodes)
  have hr : r ≤ n := by
    have := Submodule.finrank_le (leftNullSpace nodes)
    rwa [Module.finrank_fin_fun] at this
  have hsum : ∀ c : Fin n → K, ∀ j, ∑ k : Fin n, c k * (if h : (k : ℕ) < r then (b ⟨k, h⟩ : Fin n → K) j else 0)
      = ∑ i : Fin r, c (Fin.castLE hr i) * (b i : Fin n → K) j := by
    intro c j
    symm
    refine Finset.sum_of_injOn (fun i : Fin r => Fin.castLE hr i) ?_ ?_ ?_ ?_
    · intro x _ y _ hxy; exact Fin.castLE_injective hr hxy
    · intro a _; simp
    · intro p _ hp
      have : ¬ (p : ℕ) < r := fun hlt => hp ⟨⟨p, hlt⟩, by simp, Fin.ext rfl⟩
      simp [this]
    · intro i _
      simp
  refine ⟨fun i j => if h : (i : ℕ) < r then (b ⟨i, h⟩ : Fin n → K) j else 0, r, hr, ?_, ?_, ?_⟩
  · intro i hi
    have : (fun j => if h : (i : ℕ) < r then (b ⟨i, h⟩ : Fin n → K) j else 0) = (b ⟨i, hi⟩ : Fin n → K) := by
      funext j; simp [hi]
    rw [this]
    exact (b ⟨i, hi⟩).2
  · intro c hc h0 k
    by_cases hk : (k : ℕ) < r
    · have h1 : ∑ i : Fin r, c (Fin.castLE hr i) • b i = 0 := by
        apply Subtype.ext
        funext j
        have := h0 j
        rw [hsum c j] at this
        simpa [Submodule.coe_sum] using this
      have := (Fintype.linearIndependent_iff.1 b.linearIndependent) _ h1 ⟨k, hk⟩
      exact this
    · exact hc k (not_lt.1 hk)
  · intro z hz
    refine ⟨fun k => if h : (k : ℕ) < r then b.repr ⟨z, hz⟩ ⟨k, h⟩ else 0, ?_, ?_⟩
    · intro k hk
      simp [not_lt.2 hk]
    · intro j
      rw [hsum]
      have h1 := congrArg (fun v : leftNullSpace nodes => (v : Fin n → K) j) (b.sum_repr ⟨z, hz⟩)
      simp only [Submodule.coe_sum, Finset.sum_apply, Submodule.coe_smul, Pi.smul_apply, smul_eq_mul] at h1
      simp only [Fin.val_castLE, Fin.is_lt, dite_true, Fin.eta]
      exact h1.symm

/-- The hypothesis of the tree theorems can be met. -/
theorem exists_resolver : ∃ null : NullResolver K, ∀ n m (nodes : Fin n → Fin m → K),
    NullBasis nodes (null n m nodes).1 (null n m nodes).2 := by
  choose basis r h using fun (n m : ℕ) (nodes : Fin n → Fin m → K) => exists_nullBasis nodes
  exact ⟨fun n m nodes => (basis n m nodes, r n m nodes), h⟩

example : ∃ (null : NullResolver ℚ) (k : ℕ) (o : Data k ℤ ℚ),
    treeReduce (m := 1) 1000 null (fun x : ℚ => ![x]) .implicitExplicit 2 ⟨(![0, 1, 2, 3, 4, 5, 6] : Fin 7 → ℚ), fun _ => 1⟩ = some ⟨k, o⟩ ∧
    ∑ t, o.weights t = 1 ∧ (supportRows o).length ≤ 2 := by
  obtain ⟨null, hnull⟩ := exists_resolver (K := ℚ)
  obtain ⟨k, o, h1, -, h3, -, -, h6, -⟩ := C27_tree 1000 null hnull (fun x : ℚ => ![x]) .implicitExplicit 2 (by norm_num)
    ⟨(![0, 1, 2, 3, 4, 5, 6] : Fin 7 → ℚ), fun _ => 1⟩ (fun _ => by norm_num) ⟨0, by norm_num⟩
  exact ⟨null, k, o, h1, h3, h6⟩

/-! ### A run of Carathéodory recombination -/

/-- A null basis of the rows `(1, 0), (1, 1), (1, 2), (1, 3)`. -/
def lineNull : NullResolver ℚ := fun n _ _ =>
  (fun i j => if (i : ℕ) < n - 2 then (if j = i then 1 else if (j : ℕ) = i + 1 then -2 else if (j : ℕ) = i + 2 then 1 else 0) else 0, n - 2)

example : (caraReduce (m := 1) 1000 lineNull (fun x : ℚ => ![x]) .implicit ⟨(![0, 1, 2, 3] : Fin 4 → ℚ), ![1, 1, 1, 1]⟩).map
    (fun o => (List.ofFn o.2.data, List.ofFn o.2.weights)) = some ([1, 2, 0, 0], [1 / 2, 1 / 2, 0, 0]) := by decide +kernel

example : (caraReduce (m := 1) 1000 lineNull (fun x : ℚ => ![x]) .implicitExplicit ⟨(![0, 1, 2, 3] : Fin 4 → ℚ), ![1, 1, 1, 1]⟩).map
    (fun o => (List.ofFn o.2.data, List.ofFn o.2.weights)) = some ([1, 2], [1 / 2, 1 / 2]) := by decide +kernel

/-- The hypothesis of C24–C26 holds in this run. -/
example : NullBasis (caraNodes 1000 (fun x : ℚ => ![x]) ⟨(![0, 1, 2, 3] : Fin 4 → ℚ), ![1, 1, 1, 1]⟩)
    (lineNull 4 2 (caraNodes 1000 (fun x : ℚ => ![x]) ⟨(![0, 1, 2, 3] : Fin 4 → ℚ), ![1, 1, 1, 1]⟩)).1
    (lineNull 4 2 (caraNodes 1000 (fun x : ℚ => ![x]) ⟨(![0, 1, 2, 3] : Fin 4 → ℚ), ![1, 1, 1, 1]⟩)).2 := by
  have e : caraNodes 1000 (fun x : ℚ => ![x]) ⟨(![0, 1, 2, 3] : Fin 4 → ℚ), ![1, 1, 1, 1]⟩
      = ![![1, 0], ![1, 1], ![1, 2], ![1, 3]] := by decide +kernel
  have e2 : (lineNull 4 2 ![![1, 0], ![1, 1], ![1, 2], ![1, 3]]).1 = ![![1, -2, 1, 0], ![0, 1, -2, 1], 0, 0] := by decide +kernel
  rw [e, e2]
  refine ⟨by decide, ?_, ?_, ?_⟩
  · intro i hi
    unfold LeftNull
    revert i
    decide +kernel
  · intro c hc h k
    have h2 := hc 2 (by decide)
    have h3 := hc 3 (by decide)
    have h4 := h 0
    have h5 := h 3
    simp [Fin.sum_univ_four, h2, h3] at h4 h5
    fin_cases k <;> simp [*]
  · intro z hz
    have h0 := hz 0
    have h1 := hz 1
    simp [Fin.sum_univ_four] at h0 h1
    refine ⟨![z 0, z 3, 0, 0], ?_, ?_⟩
    · intro k hk
      fin_cases k
      · exact absurd hk (by decide)
      · exact absurd hk (by decide)
      · rfl
      · rfl
    · intro j
      fin_cases j <;> simp [Fin.sum_univ_four] <;> linarith

/-! ### A padding index in the output -/

/-- A null basis for equal rows: differences of neighbours. -/
def equalNull : NullResolver ℚ := fun n _ _ => (fun i j => if j = i then -1 else if (j : ℕ) = i + 1 then 1 else 0, n - 1)

/-- Five equal points. -/
def fiveEqual : Data 5 ℚ ℚ := ⟨fun _ => 7, fun _ => 1⟩

def padW0 : Fin 8 → ℚ := ![1/5, 1/5, 1/5, 1/5, 1/5, 0, 0, 0]
def padI0 : Fin 8 → ℤ := ![0, 1, 2, 3, 4, 5, 6, 7]
def padW1 : Fin 8 → ℚ := ![0, 0, 0, 0, 1, 0, 0, 0]
def padI1 : Fin 8 → ℤ := ![5, 6, 6, 6, 1, 2, 2, 2]
def padI2 : Fin 8 → ℤ := ![6, 6, 6, 6, 1, 1, 1, 1]

/-- One level from its parts. -/
theorem treeStep_of {n m count rows : ℕ} [NeZero count] [NeZero rows] [NeZero (rows * count)] [NeZero n] {big : ℚ} {null : NullResolver ℚ}
    {pf : Fin n → Fin m → ℚ} {st : Data (rows * count) ℤ ℚ} {D : Data count (Fin m → ℚ) ℚ} {nw out : Fin count → ℚ}
    {ci : Fin count → Fin rows → Fin (rows * count)}
    (h0 : centroidIdx st.weights = ci) (h1 : D.weights = fun q => ∑ j, st.weights (ci q j))
    (h2 : D.data = fun q l => (∑ j, st.weights (ci q j) * pf (gatherIdx n (st.data (ci q j))) l) / D.weights q)
    (h3 : (D.normalizePZ big).weights = nw)
    (h4 : (elimLoop (null count (m + 1) (fun t => augment (D.data (colinIdx nw t)))).2
      ⟨colinWeights nw, (null count (m + 1) (fun t => augment (D.data (colinIdx nw t)))).1⟩).map ElimState.weights = some out) :
    treeStep big null pf st = some
      { data := fun p => st.data (ci (colinIdx nw (flatNonzeroSized out count (finProdFinEquiv.symm p).2)) (finProdFinEquiv.symm p).1)
        weights := fun p => st.weights (ci (colinIdx nw (flatNonzeroSized out count (finProdFinEquiv.symm p).2)) (finProdFinEquiv.symm p).1) *
          (out (flatNonzeroSized out count (finProdFinEquiv.symm p).2) /
            D.weights (colinIdx nw (flatNonzeroSized out count (finProdFinEquiv.symm p).2))) } := by
  have hcw : centroidWeight st.weights = D.weights := by
    rw [h1]; funext q; unfold centroidWeight; rw [h0]
  have hcn : centroidNode pf st.weights st.data = D.data := by
    rw [h2]; funext q l; unfold centroidNode; rw [h0, hcw]
  have hD : (⟨centroidNode pf st.weights st.data, centroidWeight st.weights⟩ : Data count (Fin m → ℚ) ℚ) = D := by rw [hcw, hcn]
  have hcs : centroidCoreset big null D = some
      ⟨fun t => ((colinIdx nw (flatNonzeroSized out count t) : ℕ) : ℤ), fun t => out (flatNonzeroSized out count t)⟩ := by
    unfold centroidCoreset caraWeights
    simp only [h3, id]
    rw [h4]
    rfl
  unfold treeStep
  rw [hD, hcs, h0, hcw]
  simp only [Option.map_some, gatherIdx_coe]

theorem pad_level_one : treeStep (rows := 2) (count := 4) (n := 5) (m := 1) 1000 equalNull (fun _ => ![7]) ⟨padI0, padW0⟩
    = some ⟨padI1, padW1⟩ := by
  rw [treeStep_of (D := ⟨fun _ => ![7], ![1/5, 1/5, 1/5, 2/5]⟩) (nw := ![1/5, 1/5, 1/5, 2/5]) (out := ![1, 0, 0, 0])
    (ci := ![![5, 1], ![6, 2], ![7, 3], ![0, 4]]) (by decide +kernel) (by decide +kernel) (by decide +kernel) (by decide +kernel)
    (by decide +kernel)]
  refine congrArg some (congrArg₂ Data.mk ?_ ?_)
  · decide +kernel
  · decide +kernel

theorem pad_level_two : treeStep (rows := 2) (count := 4) (n := 5) (m := 1) 1000 equalNull (fun _ => ![7]) ⟨padI1, padW1⟩
    = some ⟨padI2, padW1⟩ := by
  rw [treeStep_of (D := ⟨![![0], ![0], ![0], ![7]], ![0, 0, 0, 1]⟩) (nw := ![0, 0, 0, 1]) (out := ![1, 0, 0, 0])
    (ci := ![![0, 5], ![1, 6], ![2, 7], ![3, 4]]) (by decide +kernel) (by decide +kernel) (by decide +kernel) (by decide +kernel)
    (by decide +kernel)]
  refine congrArg some (congrArg₂ Data.mk ?_ ?_)
  · decide +kernel
  · decide +kernel

theorem equalNull_sum (n m : ℕ) (v : Fin n → Fin m → ℚ) (c : Fin n → ℚ) (j : Fin n) :
    ∑ k, c k * (equalNull n m v).1 k j = (∑ k : Fin n, if (j : ℕ) = k + 1 then c k else 0) - c j := by
  have e : ∀ k, c k * (equalNull n m v).1 k j = (if (j : ℕ) = k + 1 then c k else 0) - (if k = j then c k else 0) := by
    intro k
    simp only [equalNull]
    by_cases h1 : j = k
    · subst h1
      simp
    · rw [if_neg h1, if_neg (Ne.symm h1)]
      split_ifs <;> simp
  simp only [e, Finset.sum_sub_distrib, Finset.sum_ite_eq', Finset.mem_univ, if_true]

theorem equalNull_exact (n m : ℕ) (v : Fin m → ℚ) (hv : ∃ l, v l ≠ 0) :
    NullBasis (fun _ : Fin n => v) (equalNull n m (fun _ => v)).1 (equalNull n m (fun _ => v)).2 := by
  obtain ⟨l0, hl0⟩ := hv
  have hr : (equalNull n m (fun _ => v)).2 = n - 1 := rfl
  have hprev : ∀ (c : Fin n → ℚ) (j : ℕ) (hj : j + 1 < n), (∑ k : Fin n, if j + 1 = (k : ℕ) + 1 then c k else 0) = c ⟨j, by omega⟩ := by
    intro c j hj
    rw [Finset.sum_eq_single ⟨j, by omega⟩]
    · simp
    · intro b _ hb
      rw [if_neg]
      intro hh
      exact hb (Fin.ext (by simp; omega))
    · intro hk; exact absurd (Finset.mem_univ _) hk
  refine ⟨Nat.sub_le _ _, ?_, ?_, ?_⟩
  · intro i hi l
    rw [hr] at hi
    have : ∀ j, (equalNull n m (fun _ => v)).1 i j * v l = ((if j = ⟨(i : ℕ) + 1, by omega⟩ then v l else 0) - (if j = i then v l else 0)) := by
      intro j
      simp only [equalNull]
      by_cases h1 : j = i
      · subst h1
        rw [if_pos rfl, if_neg (fun hh => by have := congrArg Fin.val hh; simp at this), if_pos rfl]
        ring
      · rw [if_neg h1, if_neg h1]
        by_cases h2 : (j : ℕ) = i + 1
        · rw [if_pos h2, if_pos (Fin.ext h2)]; ring
        · rw [if_neg h2, if_neg (fun hh => h2 (congrArg Fin.val hh))]; ring
    simp only [this, Finset.sum_sub_distrib, Finset.sum_ite_eq', Finset.mem_univ, if_true, sub_self]
  · intro c _ h k
    obtain ⟨k, hk⟩ := k
    induction k with
    | zero =>
      have := h ⟨0, hk⟩
      rw [equalNull_sum] at this
      simp at this
      exact this
    | succ k ih =>
      have h1 := h ⟨k + 1, hk⟩
      rw [equalNull_sum] at h1
      have h2 := hprev c k hk
      simp only [h2, ih (by omega)] at h1
      linarith
  · intro z hz
    have hsum : ∑ j, z j = 0 := by
      have := hz l0
      rw [← Finset.sum_mul] at this
      exact (mul_eq_zero.1 this).resolve_right hl0
    refine ⟨fun k => - ∑ j : Fin n, if (j : ℕ) ≤ k then z j else 0, ?_, ?_⟩
    · intro k hk
      rw [hr] at hk
      have : ∀ j : Fin n, (j : ℕ) ≤ k := fun j => by have := j.2; omega
      simp only [this, if_true, hsum, neg_zero]
    · intro j
      rw [equalNull_sum]
      obtain ⟨j, hj⟩ := j
      cases j with
      | zero =>
        have e : ∀ j' : Fin n, (if (j' : ℕ) ≤ 0 then z j' else 0) = if j' = ⟨0, hj⟩ then z j' else 0 := by
          intro j'
          have : ((j' : ℕ) ≤ 0) ↔ j' = ⟨0, hj⟩ := ⟨fun h => Fin.ext (Nat.le_zero.1 h), fun h => by rw [h]⟩
          simp only [this]
        simp only [e, Finset.sum_ite_eq', Finset.mem_univ, if_true]
        simp
      | succ j =>
        have h2 := hprev (fun k => - ∑ j : Fin n, if (j : ℕ) ≤ k then z j else 0) j hj
        simp only at h2
        simp only [h2]
        have e : ∀ j' : Fin n, (if (j' : ℕ) ≤ j + 1 then z j' else 0) = (if (j' : ℕ) ≤ j then z j' else 0) + if j' = ⟨j + 1, hj⟩ then z j' else 0 := by
          intro j'
          have h3 : (j' = ⟨j + 1, hj⟩) ↔ (j' : ℕ) = j + 1 := ⟨fun h => by rw [h], fun h => Fin.ext h⟩
          simp only [h3]
          rcases lt_trichotomy (j' : ℕ) (j + 1) with h | h | h
          · rw [if_pos (by omega), if_pos (by omega), if_neg (by omega), add_zero]
          · rw [if_pos (by omega), if_neg (by omega), if_pos h, zero_add]
          · rw [if_neg (by omega), if_neg (by omega), if_neg (by omega), add_zero]
        simp only [e, Finset.sum_add_distrib, Finset.sum_ite_eq', Finset.mem_univ, if_true]
        ring

/-- C27: the tree solver may return an index beyond the dataset: for five equal points, in the default mode, the result
is row 1 with weight one and, with weight zero, index 6, which refers to padding. The resolver used is exact on matrices
with equal non-zero rows, which are the only ones in this run. -/
theorem C27_padding_index :
    (∀ (n m : ℕ) (v : Fin m → ℚ), (∃ l, v l ≠ 0) → NullBasis (fun _ : Fin n => v) (equalNull n m (fun _ => v)).1 (equalNull n m (fun _ => v)).2) ∧
    ∃ (o : Data 2 ℤ ℚ), treeReduce (m := 1) 1000 equalNull (fun x : ℚ => ![x]) .implicitExplicit 2 fiveEqual = some ⟨2, o⟩ ∧
      o.data = ![1, 6] ∧ o.weights = ![1, 0] := by
  refine ⟨equalNull_exact, ?_⟩
  have hd : treeDepth 5 2 2 = 2 := by decide +kernel
  have h : treeReduce (m := 1) 1000 equalNull (fun x : ℚ => ![x]) .implicitExplicit 2 fiveEqual
      = some (coresubsetNodes 5 2 padW1 padI2 .implicitExplicit) := by
    have hi : treeInit (2 ^ (2 - 1) * (2 * (1 + 1))) (fiveEqual.normalizePZ 1000).weights = ⟨padI0, padW0⟩ :=
      congrArg₂ Data.mk (by decide +kernel) (by decide +kernel)
    have hl : treeLoop (rows := 2) (count := 4) (n := 5) (m := 1) 1000 equalNull (fun _ => ![7]) 2 ⟨padI0, padW0⟩ = some ⟨padI2, padW1⟩ := by
      have : treeLoop (rows := 2) (count := 4) (n := 5) (m := 1) 1000 equalNull (fun _ => ![7]) 2 ⟨padI0, padW0⟩ =
        ((some ⟨padI0, padW0⟩).bind (treeStep (rows := 2) (count := 4) (n := 5) (m := 1) 1000 equalNull (fun _ => ![7]))).bind
          (treeStep (rows := 2) (count := 4) (n := 5) (m := 1) 1000 equalNull (fun _ => ![7])) := rfl
      rw [this, Option.bind_some, pad_level_one, Option.bind_some, pad_level_two]
    have key : ∀ dep, dep = 2 → (treeLoop (rows := 2 ^ (dep - 1)) (count := 2 * (1 + 1)) 1000 equalNull
        (fun t => (fun x : ℚ => ![x]) (fiveEqual.data t)) dep (treeInit _ (fiveEqual.normalizePZ 1000).weights)).map
        (fun st => coresubsetNodes 5 (1 + 1) st.weights st.data .implicitExplicit)
        = some (coresubsetNodes 5 2 padW1 padI2 .implicitExplicit) := by
      rintro _ rfl
      rw [hi]
      exact congrArg (Option.map (fun st : Data 8 ℤ ℚ => coresubsetNodes 5 (1 + 1) st.weights st.data .implicitExplicit)) hl
    exact key _ hd
  exact ⟨_, h, by decide +kernel, by decide +kernel⟩

/-- C24 to C26 for Carathéodory recombination of five weighted rows, one of weight zero, with two test functions. -/
example (mode : RecombMode) : ∃ (k : ℕ) (c : Data k ℤ ℚ), ∑ t, c.weights t = 1 ∧ k ≤ 5 := by
  obtain ⟨null, hnull⟩ := exists_resolver (K := ℚ)
  obtain ⟨k, c, -, h1, -, -, h2, -⟩ := C24_caratheodory (m := 2) 1000 null (fun x : ℚ => ![x, x ^ 2]) mode ⟨![0, 1, 2, 3, 4], ![1, 2, 0, 1, 1]⟩
    (by decide +kernel) ⟨0, by decide +kernel⟩ (hnull _ _ _)
  exact ⟨k, c, h2, h1⟩

example (mode : RecombMode) : ∃ (k : ℕ) (c : Data k ℤ ℚ), (supportRows c).Nodup ∧ (supportRows c).length ≤ 3 := by
  obtain ⟨null, hnull⟩ := exists_resolver (K := ℚ)
  obtain ⟨k, c, -, h1, -, h2, -⟩ := C25_support (m := 2) 1000 null (fun x : ℚ => ![x, x ^ 2]) mode ⟨![0, 1, 2, 3, 4], ![1, 2, 0, 1, 1]⟩
    (by decide +kernel) ⟨0, by decide +kernel⟩ (hnull _ _ _)
  exact ⟨k, c, h1, h2⟩

example : ∃ (null : NullResolver ℚ) (L : List (ℤ × ℚ)), ∀ mode, ∃ (k : ℕ) (c : Data k ℤ ℚ),
    caraReduce (m := 2) 1000 null (fun x : ℚ => ![x, x ^ 2]) mode ⟨(![0, 1, 2, 3, 4] : Fin 5 → ℚ), ![1, 2, 0, 1, 1]⟩ = some ⟨k, c⟩ ∧ support c = L := by
  obtain ⟨null, hnull⟩ := exists_resolver (K := ℚ)
  obtain ⟨L, h⟩ := C26_caratheodory (m := 2) 1000 null (fun x : ℚ => ![x, x ^ 2]) ⟨(![0, 1, 2, 3, 4] : Fin 5 → ℚ), ![1, 2, 0, 1, 1]⟩
    (by decide +kernel) ⟨0, by decide +kernel⟩ (hnull _ _ _)
  exact ⟨null, L, fun mode => (h mode).imp fun k hk => hk.imp fun c hc => ⟨hc.1, hc.2.1⟩⟩

/-- One round of the elimination on two rows with the null vector `(1, -1)`. -/
example : ∃ (st : ElimState 2 ℚ) (E : Finset (Fin 2)), elimLoop 1 ⟨![1 / 4, 3 / 4], ![![1, -1], ![0, 0]]⟩ = some st ∧ E.card = 1 ∧ ∀ e ∈ E, st.weights e = 0 := by
  have hb : NullBasis (fun (_ : Fin 2) (_ : Fin 1) => (1 : ℚ)) ![![1, -1], ![0, 0]] 1 := by
    refine ⟨by norm_num, ?_, ?_, ?_⟩
    · intro i hi
      unfold LeftNull
      revert i
      decide +kernel
    · intro c hc h k
      have h1 := hc 1 (by decide)
      have h2 := h 0
      simp [Fin.sum_univ_two] at h2
      fin_cases k
      exacts [h2, h1]
    · intro z hz
      have := hz 0
      simp [Fin.sum_univ_two] at this
      refine ⟨![z 0, 0], fun k hk => ?_, fun j => ?_⟩
      · fin_cases k
        · simp at hk
        · rfl
      · fin_cases j
        · simp [Fin.sum_univ_two]
        · simp [Fin.sum_univ_two]; linarith
  obtain ⟨st, E, h1, h2, h3, -⟩ := C25_progress (w0 := ![1 / 4, 3 / 4]) ⟨0, fun _ => rfl⟩ (by decide +kernel) hb 1 le_rfl
  exact ⟨st, E, h1, h2, h3⟩

/-- The first of the levels of the tree on seven rows. -/
example : ∃ (null : NullResolver ℚ), 1 ≤ treeDepth 7 2 2 ∧ ∃ st, treeLoop 1000 null (fun t : Fin 7 => ![((![0, 1, 2, 3, 4, 5, 6] : Fin 7 → ℚ) t)]) 1
    (treeInit (2 ^ (treeDepth 7 2 2 - 1) * (2 * 2)) (Data.normalizePZ 1000 ⟨(![0, 1, 2, 3, 4, 5, 6] : Fin 7 → ℚ), fun _ => 1⟩).weights) = some st := by
  obtain ⟨null, hnull⟩ := exists_resolver (K := ℚ)
  have hd : 1 ≤ treeDepth 7 2 2 := by decide +kernel
  obtain ⟨st, h, -⟩ := C27_levels 1000 null hnull (fun x : ℚ => ![x]) 2 (by norm_num) ⟨(![0, 1, 2, 3, 4, 5, 6] : Fin 7 → ℚ), fun _ => 1⟩
    (fun _ => by norm_num) ⟨0, by norm_num⟩ 1 hd
  exact ⟨null, hd, st, h⟩

example (mode : RecombMode) : ∃ (k : ℕ) (o : Data k ℤ ℚ), ∑ t, o.weights t = 1 := by
  obtain ⟨null, hnull⟩ := exists_resolver (K := ℚ)
  obtain ⟨k, o, -, -, h, -⟩ := C24_tree 1000 null hnull (fun x : ℚ => ![x]) mode 3 (by norm_num) ⟨(![0, 1, 2, 3, 4, 5, 6] : Fin 7 → ℚ), ![1, 0, 2, 0, 1, 1, 3]⟩
    (by decide +kernel) ⟨0, by norm_num⟩
  exact ⟨k, o, h⟩

example : ∃ (null : NullResolver ℚ) (L : List (ℤ × ℚ)), ∀ mode, ∃ (k : ℕ) (o : Data k ℤ ℚ),
    treeReduce 1000 null (fun x : ℚ => ![x]) mode 3 ⟨(![0, 1, 2, 3, 4, 5, 6] : Fin 7 → ℚ), ![1, 0, 2, 0, 1, 1, 3]⟩ = some ⟨k, o⟩ ∧ support o = L := by
  obtain ⟨null, hnull⟩ := exists_resolver (K := ℚ)
  obtain ⟨L, h⟩ := C26_tree 1000 null hnull (fun x : ℚ => ![x]) 3 (by norm_num) ⟨(![0, 1, 2, 3, 4, 5, 6] : Fin 7 → ℚ), ![1, 0, 2, 0, 1, 1, 3]⟩
    (by decide +kernel) ⟨0, by norm_num⟩
  exact ⟨null, L, fun mode => (h mode).imp fun k hk => hk.imp fun c hc => ⟨hc.1, hc.2.1⟩⟩

end Coreax
