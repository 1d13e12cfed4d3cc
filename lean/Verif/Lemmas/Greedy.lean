import Verif.Model.Greedy
import Verif.Lemmas.Basic
import Verif.Props.Mean
import Verif.Spec.Greedy
import Mathlib.Data.Finset.Card
import Mathlib.Algebra.Order.Field.Rat

/-!
# Loop invariant of the greedy selection
-/

set_option linter.unusedSectionVars false

namespace Coreax

variable {X K : Type*} [Zero X] [Field K] [LinearOrder K] [IsStrictOrderedRing K]
variable {n : ℕ} [NeZero n] {m : ℕ}

namespace Greedy

/-- The member at position `t` when position `i` is being chosen: the new choices `g` before `i`, the initial
members `g0` after it. -/
def cur (g g0 : Fin m → Fin n) (i t : Fin m) : Fin n := if t < i then g t else g0 t

/-- Kernel sum over the other members when position `i` is being chosen, plus a constant offset (non-zero only if the
initial members carry non-uniform weights). -/
def restSum (off : Fin n → K) (k : X → X → K) (x : Fin n → X) (cw : Fin m → K) (g g0 : Fin m → Fin n) (i : Fin m) (j : Fin n) : K :=
  off j + ∑ t, if t < i ∨ (t ≠ i ∧ cw t > 0) then k (x j) (x (cur g g0 i t)) else 0

/-- The penalty before masking by other members. -/
def validPen (off : Fin n → K) (k : X → X → K) (x : Fin n → X) (w : Fin n → K) (unique : Bool) (cw : Fin m → K)
    (g g0 : Fin m → Fin n) (i : Fin m) (j : Fin n) : Ext K :=
  open Classical in
  if w j > 0 then
    if unique ∧ ∃ t, t < i ∧ g t = j then Ext.pinf else Ext.fin (restSum off k x cw g g0 i j)
  else Ext.nan

/-- `t` is a current member other than the one being replaced. -/
def Other (cw : Fin m → K) (g g0 : Fin m → Fin n) (i t : Fin m) (j : Fin n) : Prop :=
  cur g g0 i t = j ∧ cur g g0 i t ≠ g0 i ∧ cw t > 0

/-- What is known about the masked penalty when position `i` is chosen, whatever the order of the scatter. -/
structure MaskOK (off : Fin n → K) (k : X → X → K) (x : Fin n → X) (w : Fin n → K) (unique : Bool) (cw : Fin m → K)
    (g g0 : Fin m → Fin n) (i : Fin m) (mp : Fin n → Ext K) : Prop where
  cases : ∀ j, mp j = validPen off k x w unique cw g g0 i j ∨
    (mp j = Ext.pinf ∧ unique = true ∧ ∃ t, Other cw g g0 i t j)
  masked : ∀ j, unique = true → (∃ t, Other cw g g0 i t j) → (∀ t, cur g g0 i t = j → cw t > 0) → mp j = Ext.pinf

/-- The loop invariant after `i` iterations. -/
structure Inv (off : Fin n → K) (k : X → X → K) (x : Fin n → X) (w : Fin n → K) (unique : Bool) (cw : Fin m → K)
    (R : ℕ → ℕ → (Fin n → Ext K) → Fin n → Prop) (g0 : Fin m → Fin n) (i : ℕ)
    (s : GreedyState n m K) (g : Fin m → Fin n) : Prop where
  idx : ∀ t, s.idx t = (g t : ℤ)
  tail : ∀ t : Fin m, i ≤ t → g t = g0 t
  size : s.size = (Finset.univ.filter (fun t : Fin m => (t : ℕ) < i ∨ cw t > 0)).card
  pen : ∀ j, (unique = true ∧ (∃ t : Fin m, (t : ℕ) < i ∧ g t = j) → s.pen j = Ext.pinf) ∧
    (¬ (unique = true ∧ ∃ t : Fin m, (t : ℕ) < i ∧ g t = j) →
      s.pen j = Ext.fin (off j + ∑ t : Fin m, if (t : ℕ) < i ∨ cw t > 0 then k (x j) (x (g t)) else 0))
  pos : ∀ t : Fin m, (t : ℕ) < i → w (g t) > 0
  distinct : unique = true → ∀ t t' : Fin m, t < t' → (t' : ℕ) < i → g t ≠ g t'
  step : ∀ i' : Fin m, (i' : ℕ) < i → ∃ mp, MaskOK off k x w unique cw g g0 i' mp ∧
    R i' (Finset.univ.filter (fun t : Fin m => t ≤ i' ∨ cw t > 0)).card mp (g i')

/-- `sel` returns a row whose masked penalty is a number (if there is one), related by `R` to its arguments. -/
def Selects (w : Fin n → K) (sel : Selection n K) (R : ℕ → ℕ → (Fin n → Ext K) → Fin n → Prop) : Prop :=
  ∀ i mp size, 0 < size → (∀ j, mp j ≠ Ext.ninf) → (∀ j, mp j = Ext.nan → ¬ 0 < w j) → (∃ j v, mp j = Ext.fin v) →
    ∃ (j : Fin n) (v : K), sel i mp size = (j : ℤ) ∧ mp j = Ext.fin v ∧ R i size mp j

/-- Enough rows of positive weight for `m` positions. -/
def Enough (w : Fin n → K) (unique : Bool) (m : ℕ) : Prop :=
  if unique then m ≤ (Finset.univ.filter (fun j => w j > 0)).card else ∃ j, w j > 0

theorem validPen_ne_ninf (off : Fin n → K) (k : X → X → K) (x : Fin n → X) (w : Fin n → K) (unique : Bool) (cw : Fin m → K)
    (g g0 : Fin m → Fin n) (i : Fin m) (j : Fin n) : validPen off k x w unique cw g g0 i j ≠ Ext.ninf := by
  unfold validPen
  split_ifs <;> simp

theorem exists_candidate {off : Fin n → K} {k : X → X → K} {x : Fin n → X} {w : Fin n → K} {unique : Bool} {cw : Fin m → K}
    {g g0 : Fin m → Fin n} {i : Fin m} {mp : Fin n → Ext K} (hmp : MaskOK off k x w unique cw g g0 i mp)
    (hen : Enough w unique m) : ∃ j v, mp j = Ext.fin v := by
  classical
  by_contra hcon
  push Not at hcon
  have key : ∀ j, w j > 0 → unique = true ∧ ∃ t, t ≠ i ∧ cur g g0 i t = j := by
    intro j hj
    rcases hmp.cases j with h | ⟨-, hu, t, ht1, ht2, -⟩
    · unfold validPen at h
      rw [if_pos hj] at h
      split_ifs at h with hc
      · obtain ⟨hu, t, hti, htj⟩ := hc
        exact ⟨hu, t, hti.ne, by rw [cur, if_pos hti, htj]⟩
      · exact absurd h (hcon j _)
    · refine ⟨hu, t, fun hti => ht2 ?_, ht1⟩
      rw [hti, cur, if_neg (lt_irrefl _)]
  unfold Enough at hen
  cases unique with
  | false =>
    obtain ⟨j, hj⟩ := by simpa using hen
    simpa using (key j hj).1
  | true =>
    simp only [if_true] at hen
    have hsub : (Finset.univ.filter (fun j => w j > 0)) ⊆ (Finset.univ.erase i).image (cur g g0 i) := by
      intro j hj
      obtain ⟨-, t, ht, htj⟩ := key j (Finset.mem_filter.1 hj).2
      exact Finset.mem_image.2 ⟨t, by simp [ht], htj⟩
    have h1 := (Finset.card_le_card hsub).trans Finset.card_image_le
    rw [Finset.card_erase_of_mem (Finset.mem_univ _), Finset.card_univ, Fintype.card_fin] at h1
    have := i.pos
    omega

theorem maskedPenalty_ok (off : Fin n → K) (k : X → X → K) (x : Fin n → X) (w : Fin n → K) (unique : Bool) (ord : List (Fin m))
    (hord : ∀ t, t ∈ ord) (cw : Fin m → K) (g g0 : Fin m → Fin n) (i : Fin m)
    (htail : ∀ t : Fin m, i ≤ t → g t = g0 t) (pen : Fin n → Ext K)
    (hpen : ∀ j, (unique = true ∧ (∃ t : Fin m, t < i ∧ g t = j) → pen j = Ext.pinf) ∧
      (¬ (unique = true ∧ ∃ t : Fin m, t < i ∧ g t = j) → pen j = Ext.fin (restSum off k x cw g g0 i j))) :
    MaskOK off k x w unique cw g g0 i (maskedPenalty w unique ord cw i (fun t => (g t : ℤ)) pen) := by
  classical
  have hcur : ∀ t, cur g g0 i t = g t := by
    intro t
    unfold cur
    split_ifs with h
    · rfl
    · exact (htail t (not_lt.1 h)).symm
  have hv : ∀ j, (if w j > 0 then pen j else Ext.nan) = validPen off k x w unique cw g g0 i j := by
    intro j
    unfold validPen
    split_ifs with h1 h2
    · exact (hpen j).1 h2
    · exact (hpen j).2 h2
    · rfl
  have hgi : g i = g0 i := htail i le_rfl
  have hmask : ∀ j, maskedPenalty w true ord cw i (fun t => (g t : ℤ)) pen j
      = scatterSet ord (fun j => if w j > 0 then pen j else Ext.nan) (fun t => (g t : ℤ))
        (fun t => if (g t : ℤ) ≠ (g i : ℤ) ∧ cw t > 0 then Ext.pinf
          else if w (g t) > 0 then pen (g t) else Ext.nan) j := by
    intro j
    simp [maskedPenalty]
  cases unique with
  | false =>
    constructor
    · intro j; left; rw [← hv]; simp [maskedPenalty]
    · intro j hu; cases hu
  | true =>
    constructor
    · intro j
      rw [hmask]
      rcases scatterSet_cases ord (fun j => if w j > 0 then pen j else Ext.nan) g
        (fun t => if (g t : ℤ) ≠ (g i : ℤ) ∧ cw t > 0 then Ext.pinf
          else if w (g t) > 0 then pen (g t) else Ext.nan) j with ⟨h, -⟩ | ⟨t, -, htj, h⟩
      · left; rw [h, ← hv]
      · rw [h]
        split_ifs with h1 h2
        · right
          exact ⟨rfl, rfl, t, by rw [hcur, htj], by rw [hcur, ← hgi]; intro he; exact h1.1 (by rw [he]), h1.2⟩
        · left; rw [← hv, htj, if_pos (htj ▸ h2)]
        · left; rw [← hv, if_neg (htj ▸ h2)]
    · rintro j - ⟨t0, ht0, ht0', ht0''⟩ hall
      rw [hmask]
      rcases scatterSet_cases ord (fun j => if w j > 0 then pen j else Ext.nan) g
        (fun t => if (g t : ℤ) ≠ (g i : ℤ) ∧ cw t > 0 then Ext.pinf
          else if w (g t) > 0 then pen (g t) else Ext.nan) j with ⟨h, h'⟩ | ⟨t, -, htj, h⟩
      · exact absurd (by rw [← hcur]; exact ht0) (h' t0 (hord t0))
      · rw [h, if_pos]
        refine ⟨fun he => ?_, hall t (by rw [hcur, htj])⟩
        rw [hcur] at ht0 ht0'
        apply ht0'
        rw [ht0, ← htj, ← hgi]
        exact Fin.ext (by exact_mod_cast he)

/-- One iteration preserves the invariant. -/
theorem inv_step {off : Fin n → K} {k : X → X → K} {x : Fin n → X} {w : Fin n → K} {unique : Bool} {ord : List (Fin m)}
    (hord : ∀ t, t ∈ ord) {cw : Fin m → K} {sel : Selection n K} {R : ℕ → ℕ → (Fin n → Ext K) → Fin n → Prop}
    (hsel : Selects w sel R) {g0 : Fin m → Fin n} (hen : Enough w unique m) (i : Fin m)
    {s : GreedyState n m K} {g : Fin m → Fin n} (h : Inv off k x w unique cw R g0 i s g) :
    ∃ g', Inv off k x w unique cw R g0 (i + 1) (greedyBody k x w unique ord cw sel i s) g' := by
  classical
  -- the penalty without position `i`
  have hgi : g i = g0 i := h.tail i le_rfl
  have hcur : ∀ t, cur g g0 i t = g t := by
    intro t
    unfold cur
    split_ifs with hh
    · rfl
    · exact (h.tail t (not_lt.1 hh)).symm
  have hpen : ∀ j, (unique = true ∧ (∃ t : Fin m, t < i ∧ g t = j) →
        subtractOwn k x cw i s j = Ext.pinf) ∧
      (¬ (unique = true ∧ ∃ t : Fin m, t < i ∧ g t = j) →
        subtractOwn k x cw i s j = Ext.fin (restSum off k x cw g g0 i j)) := by
    intro j
    have hc : ∀ b : Ext K, b = s.pen j → subtractOwn k x cw i s j
        = if cw i > 0 then b - Ext.fin (k (x j) (x (g i))) else b := by
      rintro b rfl
      unfold subtractOwn kernelColumn
      rw [h.idx, gatherIdx_coe]
      split_ifs <;> rfl
    constructor
    · intro hc'
      rw [hc _ ((h.pen j).1 hc').symm]
      split_ifs <;> simp
    · intro hc'
      rw [hc _ ((h.pen j).2 hc').symm]
      have hsum : (off j + ∑ t : Fin m, if (t : ℕ) < i ∨ cw t > 0 then k (x j) (x (g t)) else 0)
          = (if cw i > 0 then k (x j) (x (g i)) else 0) + restSum off k x cw g g0 i j := by
        rw [restSum, add_left_comm]
        congr 1
        rw [← Finset.add_sum_erase _ _ (Finset.mem_univ i), ← Finset.add_sum_erase _ (fun t => if t < i ∨ _ then _ else _) (Finset.mem_univ i)]
        simp only [lt_irrefl, false_or, ne_eq, not_true_eq_false, false_and, if_false, zero_add]
        congr 1
        refine Finset.sum_congr rfl (fun t ht => ?_)
        have hti : t ≠ i := (Finset.mem_erase.1 ht).1
        rw [hcur]
        simp only [hti, not_false_eq_true, true_and, Fin.lt_def]
      rw [hsum]
      split_ifs with h1
      · simp
      · simp
  have hmask := maskedPenalty_ok off k x w unique ord hord cw g g0 i h.tail _ hpen
  set mp := maskedPenalty w unique ord cw i (fun t => (g t : ℤ)) (subtractOwn k x cw i s) with hmp
  have hsize : (if cw i > 0 then s.size else s.size + 1)
      = (Finset.univ.filter (fun t : Fin m => t ≤ i ∨ cw t > 0)).card := by
    rw [h.size]
    have hins : (Finset.univ.filter (fun t : Fin m => t ≤ i ∨ cw t > 0))
        = insert i (Finset.univ.filter (fun t : Fin m => (t : ℕ) < i ∨ cw t > 0)) := by
      ext t
      simp only [Finset.mem_filter, Finset.mem_univ, true_and, Finset.mem_insert, Fin.le_def]
      constructor
      · rintro (h | h)
        · rcases h.lt_or_eq with h | h
          · exact Or.inr (Or.inl h)
          · exact Or.inl (Fin.ext h)
        · exact Or.inr (Or.inr h)
      · rintro (rfl | h | h)
        · exact Or.inl le_rfl
        · exact Or.inl h.le
        · exact Or.inr h
    rw [hins]
    split_ifs with h1
    · rw [Finset.insert_eq_of_mem]; simp [h1]
    · rw [Finset.card_insert_of_notMem]; simp only [Finset.mem_filter, not_and_or]; right; simpa using h1
  obtain ⟨j, v, hj, hjv, hR⟩ := hsel i mp (if cw i > 0 then s.size else s.size + 1)
    (by rw [hsize]; exact Finset.card_pos.2 ⟨i, by simp⟩)
    (fun j => by
      rcases hmask.cases j with hh | ⟨hh, -⟩
      · rw [hh]; exact validPen_ne_ninf off k x w unique cw g g0 i j
      · rw [hh]; simp)
    (fun j hjn => by
      rcases hmask.cases j with hh | ⟨hh, -⟩
      · rw [hh, validPen] at hjn
        split_ifs at hjn with hw
        exact hw
      · rw [hh] at hjn; cases hjn)
    (exists_candidate hmask hen)
  -- facts about the chosen row
  have hvalid : mp j = validPen off k x w unique cw g g0 i j := by
    rcases hmask.cases j with hh | ⟨hh, -⟩
    · exact hh
    · rw [hh] at hjv; cases hjv
  have hwj : w j > 0 := by
    by_contra hcon
    rw [hvalid, validPen, if_neg hcon] at hjv
    cases hjv
  have hnew : ¬ (unique = true ∧ ∃ t : Fin m, t < i ∧ g t = j) := by
    intro hcon
    rw [hvalid, validPen, if_pos hwj, if_pos hcon] at hjv
    cases hjv
  have hidx : s.idx = fun t => (g t : ℤ) := funext h.idx
  have hbody : greedyBody k x w unique ord cw sel i s =
      { idx := Function.update s.idx i (j : ℤ)
        pen := if unique then Function.update (fun l => subtractOwn k x cw i s l + Ext.fin (k (x l) (x j))) j Ext.pinf
          else fun l => subtractOwn k x cw i s l + Ext.fin (k (x l) (x j))
        size := if cw i > 0 then s.size else s.size + 1 } := by
    unfold greedyBody
    simp only
    rw [hidx, ← hmp, hj]
    simp only [setAt_coe, kernelColumn, gatherIdx_coe]
  rw [hbody]
  set g' : Fin m → Fin n := Function.update g i j with hg'
  have hg'i : g' i = j := by simp [hg']
  have hg'ne : ∀ t, t ≠ i → g' t = g t := fun t ht => by simp [hg', ht]
  have hg'lt : ∀ t : Fin m, t < i → g' t = g t := fun t ht => hg'ne t ht.ne
  have hcur' : ∀ (i' : Fin m), i' ≤ i → ∀ t, cur g' g0 i' t = cur g g0 i' t := by
    intro i' hi' t
    unfold cur
    split_ifs with ht
    · exact hg'lt t (ht.trans_le hi')
    · rfl
  have hrest' : ∀ (i' : Fin m), i' ≤ i → ∀ l, restSum off k x cw g' g0 i' l = restSum off k x cw g g0 i' l := by
    intro i' hi' l
    simp only [restSum, hcur' i' hi']
  have hvalid' : ∀ (i' : Fin m), i' ≤ i → ∀ l, validPen off k x w unique cw g' g0 i' l
      = validPen off k x w unique cw g g0 i' l := by
    intro i' hi' l
    have : (∃ t, t < i' ∧ g' t = l) ↔ ∃ t, t < i' ∧ g t = l := by
      constructor
      · rintro ⟨t, ht, h'⟩; exact ⟨t, ht, by rw [← hg'lt t (ht.trans_le hi'), h']⟩
      · rintro ⟨t, ht, h'⟩; exact ⟨t, ht, by rw [hg'lt t (ht.trans_le hi'), h']⟩
    unfold validPen
    rw [hrest' i' hi']
    simp only [this]
  have hmaskok' : ∀ (i' : Fin m), i' ≤ i → ∀ q, MaskOK off k x w unique cw g g0 i' q →
      MaskOK off k x w unique cw g' g0 i' q := by
    intro i' hi' q hq
    constructor
    · intro l
      rw [hvalid' i' hi']
      simpa only [Other, hcur' i' hi'] using hq.cases l
    · intro l
      simpa only [Other, hcur' i' hi'] using hq.masked l
  have hex : ∀ l, (∃ t : Fin m, (t : ℕ) < i + 1 ∧ g' t = l) ↔ (l = j ∨ ∃ t : Fin m, t < i ∧ g t = l) := by
    intro l
    constructor
    · rintro ⟨t, ht, htl⟩
      by_cases hti : t = i
      · left; rw [← htl, hti, hg'i]
      · right
        have : t < i := by rw [Fin.lt_def]; have : (t : ℕ) ≠ i := fun h => hti (Fin.ext h); omega
        exact ⟨t, this, by rw [← hg'lt t this, htl]⟩
    · rintro (rfl | ⟨t, ht, htl⟩)
      · exact ⟨i, by omega, hg'i⟩
      · exact ⟨t, by rw [Fin.lt_def] at ht; omega, by rw [hg'lt t ht, htl]⟩
  have hsum' : ∀ l, (off l + ∑ t : Fin m, if (t : ℕ) < i + 1 ∨ cw t > 0 then k (x l) (x (g' t)) else 0)
      = restSum off k x cw g g0 i l + k (x l) (x j) := by
    intro l
    rw [restSum, add_assoc]
    congr 1
    rw [← Finset.sum_erase_add _ _ (Finset.mem_univ i),
      ← Finset.sum_erase_add _ (fun t => if t < i ∨ _ then _ else _) (Finset.mem_univ i)]
    simp only [hg'i, lt_irrefl, false_or, ne_eq, not_true_eq_false, false_and, if_false, add_zero,
      Nat.lt_succ_self, true_or, if_true]
    congr 1
    refine Finset.sum_congr rfl (fun t ht => ?_)
    have hti : t ≠ i := (Finset.mem_erase.1 ht).1
    have hti' : (t : ℕ) ≠ i := fun h => hti (Fin.ext h)
    rw [hcur, hg'ne t hti]
    have : ((t : ℕ) < i + 1 ∨ cw t > 0) ↔ (t < i ∨ (t ≠ i ∧ cw t > 0)) := by
      rw [Fin.lt_def]
      constructor
      · rintro (h | h)
        · left; omega
        · right; exact ⟨hti, h⟩
      · rintro (h | h)
        · left; omega
        · right; exact h.2
    simp only [this, ne_eq]
  refine ⟨g', ?_, ?_, ?_, ?_, ?_, ?_, ?_⟩
  · intro t
    by_cases hti : t = i
    · subst hti; simp [hg'i]
    · simp [hti, hg'ne t hti, h.idx]
  · intro t ht
    have hti : t ≠ i := by rintro rfl; omega
    rw [hg'ne t hti]
    exact h.tail t (by omega)
  · simp only
    rw [hsize]
    congr 1
    ext t
    simp only [Finset.mem_filter, Finset.mem_univ, true_and, Fin.le_def, Nat.lt_succ_iff]
  · intro l
    rw [hex, hsum']
    cases unique with
    | false =>
      simp only [Bool.false_eq_true, false_and, false_implies, not_false_eq_true, true_implies, if_false, true_and]
      rw [(hpen l).2 (by simp)]
      simp
    | true =>
      simp only [true_and, if_true]
      by_cases hlj : l = j
      · subst hlj; simp
      · simp only [hlj, false_or]
        rw [Function.update_of_ne hlj]
        constructor
        · intro hh; rw [(hpen l).1 ⟨rfl, hh⟩]; simp
        · intro hh; rw [(hpen l).2 (by simpa using hh)]; simp
  · intro t ht
    by_cases hti : t = i
    · rw [hti, hg'i]; exact hwj
    · have hti' : (t : ℕ) ≠ i := fun h => hti (Fin.ext h)
      rw [hg'ne t hti]
      exact h.pos t (by omega)
  · intro hu t t' htt' ht'
    by_cases hti : t' = i
    · subst hti
      rw [hg'i, hg'lt t htt']
      exact fun hh => hnew ⟨hu, t, htt', hh⟩
    · have hti' : (t' : ℕ) ≠ i := fun h => hti (Fin.ext h)
      have : t' < i := by rw [Fin.lt_def]; omega
      rw [hg'lt t' this, hg'lt t (htt'.trans this)]
      exact h.distinct hu t t' htt' (by rw [Fin.lt_def] at this; exact this)
  · intro i' hi'
    by_cases hii : i' = i
    · subst hii
      refine ⟨mp, hmaskok' i' le_rfl _ hmask, ?_⟩
      rw [hg'i, ← hsize]
      exact hR
    · have hii' : (i' : ℕ) ≠ i := fun h => hii (Fin.ext h)
      obtain ⟨q, hq, hr⟩ := h.step i' (by omega)
      refine ⟨q, hmaskok' i' (by rw [Fin.le_def]; omega) q hq, ?_⟩
      rw [hg'ne i' hii]
      exact hr

theorem asVec_ofFn {L : Type*} [Zero L] {n : ℕ} (f : Fin n → L) : asVec n (List.ofFn f) = f := by
  funext i
  simp [asVec, List.getD]

/-- The initial positions as rows. -/
def rows (c : Data m ℤ K) (out : ℕ) : Fin (m + (out - m)) → Fin n := fun t => gatherIdx n ((padIndices c out).data t)

/-- All indices are rows of the dataset. -/
def InRange (n : ℕ) (c : Data m ℤ K) : Prop := ∀ t, 0 ≤ c.data t ∧ c.data t < n

theorem rows_coe {c : Data m ℤ K} (hc : InRange n c) (out : ℕ) (t) :
    (padIndices c out).data t = ((rows (n := n) c out t : Fin n) : ℤ) := by
  have key : ∀ z : ℤ, 0 ≤ z → z < n → z = ((gatherIdx n z : Fin n) : ℤ) := by
    intro z h0 h1
    obtain ⟨q, rfl⟩ := Int.eq_ofNat_of_zero_le h0
    have hq : q < n := by omega
    exact (congrArg (fun j : Fin n => ((j : ℕ) : ℤ)) (gatherIdx_coe (⟨q, hq⟩ : Fin n))).symm
  refine Fin.addCases (fun a => ?_) (fun a => ?_) t
  · simp only [rows, padIndices, zeroPad, Fin.append_left]
    exact key _ (hc a).1 (hc a).2
  · simp only [rows, padIndices, zeroPad, Fin.append_right]
    exact key _ le_rfl (by exact_mod_cast NeZero.pos n)

/-- The whole run. -/
theorem run (big : K) (k : X → X → K) (pre : Data n X K) {bs : PyTree (Option ℤ)} (hbs : ValidBlock bs)
    (unique : Bool) {sel : Selection n K} {R : ℕ → ℕ → (Fin n → Ext K) → Fin n → Prop} (hsel : Selects pre.weights sel R)
    {out : ℕ} (hout : 0 < out) (c : Data m ℤ K) (hc : InRange n c) {ord : List (Fin (m + (out - m)))}
    (hord : ∀ t, t ∈ ord) (hen : Enough pre.weights unique (m + (out - m))) :
    ∃ off s g, greedySelection big k pre bs unique sel out c ord
        = .ok ⟨fun t => ((g (t.castLE (out_le_padded m out)) : Fin n) : ℤ), fun _ => 1⟩ ∧
      Inv off k pre.data pre.weights unique (padIndices c out).weights R (rows c out) out s g ∧
      (Spec.UniformWeights c.weights → ∀ j, off j = 0) := by
  classical
  have hn : 0 < n := NeZero.pos n
  have hm : 0 < m + (out - m) := by omega
  obtain ⟨l, hl, hlen⟩ := (C05_mean_errors big k (Data.ofArray pre.data)
    (⟨fun t => pre.data (rows c out t), (padIndices c out).weights⟩ : Data (m + (out - m)) X K) .one bs).2.1 hbs hn hm
  set cw := (padIndices c out).weights with hcw
  set size := (Finset.univ.filter (fun t => cw t > 0)).card with hsize
  set off : Fin n → K := fun j => (size : K) * asVec n l j -
    ∑ t, if cw t > 0 then k (pre.data j) (pre.data (rows c out t)) else 0 with hoff
  have hinit : initPenalty big k pre bs (padIndices c out)
      = .ok (fun j => Ext.fin ((size : K) * asVec n l j), size) := by
    simp only [initPenalty]
    have : (fun t => pre.data (gatherIdx n ((padIndices c out).data t))) = fun t => pre.data (rows c out t) := rfl
    rw [this, hl]
  have hrun := forLoop_inv (P := fun i s => ∃ g, Inv off k pre.data pre.weights unique cw R (rows c out) i s g) out
    (fun i => greedyBody k pre.data pre.weights unique ord cw sel (i.castLE (out_le_padded m out)))
    ⟨(padIndices c out).data, fun j => Ext.fin ((size : K) * asVec n l j), size⟩
    ⟨rows c out, ?_⟩ (fun i s ⟨g, hg⟩ => inv_step hord hsel hen (i.castLE (out_le_padded m out)) hg)
  · obtain ⟨g, hg⟩ := hrun
    refine ⟨off, _, g, ?_, hg, ?_⟩
    · unfold greedySelection
      simp only [hinit]
      congr 2
      funext t
      exact hg.idx _
    · rintro ⟨u, hu, hcu⟩ j
      have hcu' : ∀ t, cw t = 0 ∨ cw t = u := by
        intro t
        refine Fin.addCases (fun a => ?_) (fun a => ?_) t
        · simpa [hcw, padIndices, zeroPad] using hcu a
        · left; simp [hcw, padIndices, zeroPad]
      have hcwu : ∀ t, cw t = if cw t > 0 then u else 0 := by
        intro t
        rcases hcu' t with h | h
        · simp [h]
        · simp [h, hu]
      have hsum : ∑ t, cw t = u * size := by
        rw [Finset.sum_congr rfl (fun t _ => hcwu t), ← Finset.sum_filter, Finset.sum_const, nsmul_eq_mul, mul_comm]
      simp only [hoff]
      by_cases h0 : size = 0
      · rw [h0, Nat.cast_zero, zero_mul, zero_sub, neg_eq_zero]
        refine Finset.sum_eq_zero (fun t _ => ?_)
        rw [if_neg]
        intro ht
        have : t ∈ Finset.univ.filter (fun t => cw t > 0) := by simp [ht]
        rw [Finset.card_eq_zero.1 h0] at this
        simp at this
      · have hs0 : (size : K) ≠ 0 := by exact_mod_cast h0
        have hne : ∑ t, cw t ≠ 0 := by rw [hsum]; exact mul_ne_zero hu.ne' hs0
        rw [C05_mean_axis1 big k hn hm _ _ hne bs hbs] at hl
        injection hl with hl
        rw [← hl]
        rw [asVec_ofFn]
        simp only [Data.ofArray]
        simp only [Spec.avg]
        rw [hsum, ← Finset.sum_congr rfl (fun t _ => congrArg (· * k (pre.data j) (pre.data (rows c out t))) (hcwu t).symm)]
        simp only [ite_mul, zero_mul]
        rw [← Finset.sum_filter, ← Finset.sum_filter, ← Finset.mul_sum]
        field_simp
        simp
  · constructor
    · exact rows_coe hc out
    · intros; rfl
    · simp [hsize]
    · intro j
      refine ⟨fun h => ?_, fun _ => ?_⟩
      · obtain ⟨-, t, ht, -⟩ := h; omega
      · simp [hoff]
    · intro t ht; omega
    · intro _ t t' _ ht; omega
    · intro i' hi'; omega

end Greedy

end Coreax
