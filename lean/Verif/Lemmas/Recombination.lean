import Verif.Spec.Recombination
import Verif.Lemmas.GKP
import Verif.Props.Data
import Mathlib.Algebra.Order.BigOperators.Group.Finset
import Mathlib.Tactic.FieldSimp
import Mathlib.LinearAlgebra.Dimension.Constructions
import Mathlib.LinearAlgebra.FiniteDimensional.Lemmas

/-!
# Lemmas on Caratheodory recombination: elimination and co-linearisation
-/

set_option linter.unusedSectionVars false

namespace Coreax

open Spec

variable {K : Type*} [Field K] [LinearOrder K] [IsStrictOrderedRing K] {n m : ℕ} [NeZero n]

theorem argminFirst_spec (w : Fin n → K) : ∀ j, w (argminFirst w) ≤ w j ∧ (j < argminFirst w → w (argminFirst w) < w j) := by
  obtain ⟨b, h1, h2⟩ := argminNan_spec (fun i => Ext.fin (w i)) (NeZero.pos n) (fun b => by simp)
  have e : argminFirst w = b := by unfold argminFirst; rw [h1, gatherIdx_coe]
  rw [e]
  intro j
  obtain ⟨h3, h4⟩ := h2 j
  simp only [Ext.keyMin, WithBot.coe_le_coe, WithTop.coe_le_coe, WithBot.coe_lt_coe, WithTop.coe_lt_coe] at h3 h4
  exact ⟨h3, h4⟩

theorem argmaxFirst_spec (w : Fin n → K) : ∀ j, w j ≤ w (argmaxFirst w) ∧ (j < argmaxFirst w → w j < w (argmaxFirst w)) := by
  obtain ⟨b, v, h1, h2, h3⟩ := nanargmax_spec (fun i => Ext.fin (w i)) (fun b => by simp) ⟨0, _, rfl⟩
  have e : argmaxFirst w = b := by unfold argmaxFirst; rw [h1, gatherIdx_coe]
  rw [e]
  simp only [Ext.fin.injEq] at h2
  intro j
  rw [h2]
  exact h3 j _ rfl

/-! ### One elimination -/

theorem eliminate_spec (st : ElimState n K) (i : Fin n) (h : ∃ j, 0 < st.basis i j) :
    ∃ b, 0 < st.basis i b ∧ (∀ j, 0 < st.basis i j → st.weights b / st.basis i b ≤ st.weights j / st.basis i j) ∧
      eliminate st i = some
        ⟨fun j => st.weights j - st.weights b / st.basis i b * st.basis i j,
          fun k j => st.basis k j - st.basis k b * (st.basis i j / st.basis i b)⟩ := by
  obtain ⟨b, h1, h2⟩ := argminNan_spec (elimCond st.weights (st.basis i)) (NeZero.pos n)
    (fun b => by unfold elimCond; split_ifs <;> simp)
  obtain ⟨j0, hj0⟩ := h
  have hb : 0 < st.basis i b := by
    by_contra hb
    have := (h2 j0).1
    simp only [elimCond, hb, hj0, if_true, if_false, Ext.keyMin, WithBot.coe_le_coe, top_le_iff] at this
    exact WithTop.coe_ne_top this
  refine ⟨b, hb, ?_, ?_⟩
  · intro j hj
    have := (h2 j).1
    simpa only [elimCond, hb, hj, if_true, Ext.keyMin, WithBot.coe_le_coe, WithTop.coe_le_coe] using this
  · unfold eliminate
    simp only [h1, gatherIdx_coe]
    simp only [elimCond, hb, if_true]
    congr 2
    · funext j
      by_cases hj : j = b
      · subst hj
        rw [Function.update_self]
        field_simp
        ring
      · rw [Function.update_of_ne hj]
    · funext k j
      by_cases hj : j = b
      · subst hj
        rw [Function.update_self]
        field_simp
        ring
      · rw [Function.update_of_ne hj]

/-- The state after `i` eliminations: `E` holds the eliminated positions. -/
structure ElimInv (nodes : Fin n → Fin m → K) (w0 : Fin n → K) (r i : ℕ) (E : Finset (Fin n)) (st : ElimState n K) : Prop where
  card : E.card = i
  nonneg : ∀ j, 0 ≤ st.weights j
  sum : ∀ l, ∑ j, st.weights j * nodes j l = ∑ j, w0 j * nodes j l
  null : ∀ k : Fin n, i ≤ (k : ℕ) → (k : ℕ) < r → LeftNull nodes (st.basis k)
  indep : ∀ c : Fin n → K, (∀ k : Fin n, ((k : ℕ) < i ∨ r ≤ (k : ℕ)) → c k = 0) →
    (∀ j, ∑ k, c k * st.basis k j = 0) → ∀ k, c k = 0
  gone : ∀ e ∈ E, st.weights e = 0 ∧ ∀ k, st.basis k e = 0
  span : ∀ z : Fin n → K, LeftNull nodes z → (∀ e ∈ E, z e = 0) →
    ∃ c : Fin n → K, (∀ k : Fin n, ((k : ℕ) < i ∨ r ≤ (k : ℕ)) → c k = 0) ∧ ∀ j, z j = ∑ k, c k * st.basis k j

/-- A non-zero dependence among nodes with a constant coordinate has a positive entry. -/
theorem exists_pos_of_null {nodes : Fin n → Fin m → K} (hone : ∃ l, ∀ j, nodes j l = 1) {v : Fin n → K}
    (hv : LeftNull nodes v) (hne : ∃ j, v j ≠ 0) : ∃ j, 0 < v j := by
  obtain ⟨l, hl⟩ := hone
  have hs : ∑ j, v j = 0 := by
    have := hv l
    simpa [hl] using this
  by_contra hc
  push Not at hc
  have := (Finset.sum_eq_zero_iff_of_nonpos (fun j _ => hc j)).1 hs
  obtain ⟨j, hj⟩ := hne
  exact hj (this j (Finset.mem_univ j))

theorem eliminate_inv {nodes : Fin n → Fin m → K} (hone : ∀ v : Fin n → K, LeftNull nodes v → (∃ j, v j ≠ 0) → ∃ j, 0 < v j) {w0 : Fin n → K} {r i : ℕ}
    (hir : i < r) (hrn : r ≤ n) {E : Finset (Fin n)} {st : ElimState n K} (h : ElimInv nodes w0 r i E st) :
    ∃ b st', eliminate st (gatherIdx n (i : ℤ)) = some st' ∧ b ∉ E ∧ ElimInv nodes w0 r (i + 1) (insert b E) st' := by
  have hin : i < n := by omega
  have hg : gatherIdx n (i : ℤ) = (⟨i, hin⟩ : Fin n) := gatherIdx_coe (⟨i, hin⟩ : Fin n)
  rw [hg]
  set I : Fin n := ⟨i, hin⟩ with hI
  have hnull := h.null I le_rfl hir
  have hne : ∃ j, st.basis I j ≠ 0 := by
    by_contra hc
    push Not at hc
    have := h.indep (Pi.single I 1) (fun k hk => ?_) (fun j => ?_) I
    · simp at this
    · apply Pi.single_eq_of_ne
      rintro rfl
      simp only [hI] at hk
      omega
    · refine Finset.sum_eq_zero (fun k _ => ?_)
      by_cases hk : k = I
      · subst hk; simp [hc]
      · simp [Pi.single_eq_of_ne hk]
  obtain ⟨b, hb, hmin, hst⟩ := eliminate_spec st I (hone _ hnull hne)
  have hbE : b ∉ E := by
    intro hbE
    rw [(h.gone b hbE).2 I] at hb
    exact lt_irrefl _ hb
  refine ⟨b, _, hst, hbE, ?_⟩
  constructor
  · rw [Finset.card_insert_of_notMem hbE, h.card]
  · intro j
    simp only
    rcases lt_or_ge 0 (st.basis I j) with hj | hj
    · have := hmin j hj
      rw [div_le_div_iff₀ hb hj] at this
      rw [sub_nonneg, div_mul_eq_mul_div, div_le_iff₀ hb]
      exact this
    · have h1 : 0 ≤ st.weights b / st.basis I b := div_nonneg (h.nonneg b) hb.le
      have h2 := mul_nonpos_of_nonneg_of_nonpos h1 hj
      have := h.nonneg j
      linarith

  · intro l
    rw [← h.sum l]
    have := hnull l
    simp only [sub_mul, Finset.sum_sub_distrib]
    have e : ∑ j, st.weights b / st.basis I b * st.basis I j * nodes j l
        = st.weights b / st.basis I b * ∑ j, st.basis I j * nodes j l := by
      rw [Finset.mul_sum]; exact Finset.sum_congr rfl fun j _ => by ring
    rw [e, this, mul_zero, sub_zero]
  · intro k hk hkr l
    have h1 := h.null k (by omega) hkr l
    have h2 := hnull l
    have e : ∑ j, (st.basis k j - st.basis k b * (st.basis I j / st.basis I b)) * nodes j l
        = ∑ j, st.basis k j * nodes j l - st.basis k b / st.basis I b * ∑ j, st.basis I j * nodes j l := by
      rw [Finset.mul_sum, ← Finset.sum_sub_distrib]; exact Finset.sum_congr rfl fun j _ => by ring
    simp only
    rw [e, h1, h2, mul_zero, sub_zero]
  · intro c hc hz
    -- combine into coefficients for the old rows
    have key := h.indep (fun k => if k = I then -(∑ k, c k * st.basis k b) / st.basis I b else c k) ?_ ?_
    · intro k
      by_cases hk : k = I
      · exact hc k (Or.inl (by rw [hk]; simp [hI]))
      · have := key k
        simpa [hk] using this
    · intro k hk
      have hkI : k ≠ I := by
        rintro rfl
        simp only [hI] at hk
        omega
      simp only [hkI, if_false]
      rcases hk with hk | hk
      · exact hc k (Or.inl (by omega))
      · exact hc k (Or.inr hk)
    · intro j
      have hcI : c I = 0 := hc I (Or.inl (by simp [hI]))
      have h1 := hz j
      simp only at h1
      have e : ∑ k, (if k = I then -(∑ k, c k * st.basis k b) / st.basis I b else c k) * st.basis k j
          = ∑ k, c k * st.basis k j + -(∑ k, c k * st.basis k b) / st.basis I b * st.basis I j := by
        rw [← Finset.add_sum_erase _ _ (Finset.mem_univ I), ← Finset.add_sum_erase (Finset.univ) (fun k => c k * st.basis k j)
          (Finset.mem_univ I)]
        simp only [if_true, hcI, zero_mul, zero_add]
        rw [add_comm]
        congr 1
        refine Finset.sum_congr rfl fun k hk => ?_
        rw [if_neg (Finset.ne_of_mem_erase hk)]
      rw [e]
      rw [← h1, neg_div, neg_mul, ← sub_eq_add_neg, div_mul_eq_mul_div, mul_div_assoc, Finset.sum_mul, ← Finset.sum_sub_distrib]
      refine Finset.sum_congr rfl fun k _ => ?_
      ring
  · intro e he
    rw [Finset.mem_insert] at he
    rcases he with rfl | he
    · refine ⟨?_, fun k => ?_⟩
      · simp only; field_simp; ring
      · simp only; field_simp; ring
    · obtain ⟨h1, h2⟩ := h.gone e he
      refine ⟨by simp only [h1, h2]; ring, fun k => by simp only [h2]; ring⟩
  · intro z hz hze
    obtain ⟨c, hc, hcz⟩ := h.span z hz (fun e he => hze e (Finset.mem_insert_of_mem he))
    have hzb : ∑ k, c k * st.basis k b = 0 := by rw [← hcz b]; exact hze b (Finset.mem_insert_self _ _)
    refine ⟨fun k => if k = I then 0 else c k, fun k hk => ?_, fun j => ?_⟩
    · by_cases hkI : k = I
      · simp [hkI]
      · simp only [hkI, if_false]
        rcases hk with hk | hk
        · refine hc k (Or.inl ?_)
          have : (k : ℕ) ≠ i := fun hh => hkI (Fin.ext hh)
          omega
        · exact hc k (Or.inr hk)
    · rw [hcz j]
      have e : ∀ k, (if k = I then 0 else c k) * (st.basis k j - st.basis k b * (st.basis I j / st.basis I b))
          = c k * st.basis k j - c k * st.basis k b * (st.basis I j / st.basis I b) := by
        intro k
        split_ifs with hk
        · subst hk; field_simp; ring
        · ring
      simp only [e]
      rw [Finset.sum_sub_distrib, ← Finset.sum_mul, hzb, zero_mul, sub_zero]

/-- The whole loop, for nodes all of whose dependences have a positive entry. -/
theorem elimLoop_spec_of_pos {nodes : Fin n → Fin m → K} (hone : ∀ v : Fin n → K, LeftNull nodes v → (∃ j, v j ≠ 0) → ∃ j, 0 < v j) {w0 : Fin n → K} (hw : ∀ j, 0 ≤ w0 j)
    {basis : Fin n → Fin n → K} {r : ℕ} (hb : NullBasis nodes basis r) :
    ∃ (st : ElimState n K) (E : Finset (Fin n)), elimLoop r ⟨w0, basis⟩ = some st ∧ ElimInv nodes w0 r r E st := by
  unfold elimLoop
  refine forLoop_inv (P := fun i acc => ∃ (st : ElimState n K) (E : Finset (Fin n)), acc = some st ∧ ElimInv nodes w0 r i E st)
    r _ _ ?_ ?_
  · refine ⟨_, ∅, rfl, ?_⟩
    refine ⟨rfl, hw, fun _ => rfl, fun k _ hk => hb.null k hk, fun c hc => hb.indep c fun k hk => hc k (Or.inr hk), by simp, fun z hz _ => ?_⟩
    obtain ⟨c, h1, h2⟩ := hb.span z hz
    exact ⟨c, fun k hk => h1 k (by omega), h2⟩
  · rintro i acc ⟨st, E, rfl, hinv⟩
    obtain ⟨b, st', h1, -, h2⟩ := eliminate_inv hone i.2 hb.le hinv
    exact ⟨st', _, h1, h2⟩

/-- The whole loop. -/
theorem elimLoop_spec {nodes : Fin n → Fin m → K} (hone : ∃ l, ∀ j, nodes j l = 1) {w0 : Fin n → K} (hw : ∀ j, 0 ≤ w0 j)
    {basis : Fin n → Fin n → K} {r : ℕ} (hb : NullBasis nodes basis r) :
    ∃ (st : ElimState n K) (E : Finset (Fin n)), elimLoop r ⟨w0, basis⟩ = some st ∧ ElimInv nodes w0 r r E st :=
  elimLoop_spec_of_pos (fun _ hv hne => exists_pos_of_null hone hv hne) hw hb

/-! ### Co-linearisation -/

theorem argmaxFirst_pos {w : Fin n → K} (h : ∃ t, 0 < w t) : 0 < w (argmaxFirst w) := by
  obtain ⟨t, ht⟩ := h
  exact lt_of_lt_of_le ht (argmaxFirst_spec w t).1

theorem colinIdx_pos {w : Fin n → K} (h : ∃ t, 0 < w t) (t : Fin n) : 0 < w (colinIdx w t) := by
  unfold colinIdx
  split_ifs with ht
  · exact ht
  · exact argmaxFirst_pos h

theorem colinWeights_pos {w : Fin n → K} (h : ∃ t, 0 < w t) (t : Fin n) : 0 < colinWeights w t := by
  unfold colinWeights
  by_cases hm : colinIdx w t = argmaxFirst w
  · rw [hm, Function.update_self]
    have := argmaxFirst_pos h
    positivity
  · rw [Function.update_of_ne hm]
    exact colinIdx_pos h t

/-- The integral of any function is unchanged. -/
theorem colin_sum {w : Fin n → K} (hw : ∀ t, 0 ≤ w t) (h : ∃ t, 0 < w t) (g : Fin n → K) :
    ∑ t, colinWeights w t * g (colinIdx w t) = ∑ t, w t * g t := by
  set M := argmaxFirst w with hM
  have hMpos : 0 < w M := argmaxFirst_pos h
  have e : ∀ t, colinWeights w t * g (colinIdx w t)
      = (if t = M then 0 else w t * g t) + (if t = M ∨ ¬ 0 < w t then w M / ((nZeros w : K) + 1) * g M else 0) := by
    intro t
    unfold colinWeights colinIdx
    rw [← hM]
    by_cases ht : 0 < w t
    · simp only [ht, if_true, not_true_eq_false, or_false]
      by_cases htM : t = M
      · subst htM; simp
      · simp [htM]
    · have htM : t ≠ M := by rintro rfl; exact ht hMpos
      have hz : w t = 0 := le_antisymm (not_lt.1 ht) (hw t)
      simp [ht, htM, hz]
  simp only [e]
  rw [Finset.sum_add_distrib]
  have h1 : ∑ t, (if t = M then 0 else w t * g t) = ∑ t, w t * g t - w M * g M := by
    rw [← Finset.add_sum_erase _ _ (Finset.mem_univ M), ← Finset.add_sum_erase (Finset.univ) (fun t => w t * g t) (Finset.mem_univ M)]
    simp only [if_true, zero_add]
    rw [add_sub_cancel_left]
    exact Finset.sum_congr rfl fun t ht => by rw [if_neg (Finset.ne_of_mem_erase ht)]
  have h2 : ∑ t, (if t = M ∨ ¬ 0 < w t then w M / ((nZeros w : K) + 1) * g M else 0) = w M * g M := by
    rw [← Finset.sum_filter, Finset.sum_const, nsmul_eq_mul]
    have hc : (Finset.univ.filter (fun t => t = M ∨ ¬ 0 < w t)).card = nZeros w + 1 := by
      unfold nZeros
      rw [Finset.filter_or, Finset.filter_eq' , if_pos (Finset.mem_univ M), Finset.card_union_of_disjoint, Finset.card_singleton,
        add_comm]
      rw [Finset.disjoint_singleton_left]
      simp [hMpos]
    rw [hc]
    push_cast
    have : (nZeros w : K) + 1 ≠ 0 := by positivity
    field_simp
  rw [h1, h2, sub_add_cancel]

/-! ### Non-zero entries -/

theorem mem_flatNonzero {N : ℕ} {w : Fin N → K} {t : Fin N} : t ∈ flatNonzero w ↔ w t ≠ 0 := by
  simp [flatNonzero]

theorem nodup_flatNonzero {N : ℕ} (w : Fin N → K) : (flatNonzero w).Nodup :=
  (List.nodup_finRange N).filter _

theorem length_flatNonzero {N : ℕ} (w : Fin N → K) :
    (flatNonzero w).length = (Finset.univ.filter (fun t => w t ≠ 0)).card := by
  rw [← List.toFinset_card_of_nodup (nodup_flatNonzero w)]
  congr 1
  ext t
  simp [mem_flatNonzero]

/-- A fill entry has weight zero. -/
theorem fill_zero {N : ℕ} [NeZero N] {w : Fin N → K} (hw : ∀ t, 0 ≤ w t) (h : (flatNonzero w).length < N) :
    w (argminFirst w) = 0 := by
  have : ∃ t, w t = 0 := by
    by_contra hc
    push Not at hc
    rw [length_flatNonzero, Finset.filter_true_of_mem (fun t _ => hc t)] at h
    simp at h
  obtain ⟨t, ht⟩ := this
  exact le_antisymm (ht ▸ (argminFirst_spec w t).1) (hw _)

theorem sized_of_lt {N : ℕ} [NeZero N] {w : Fin N → K} {k : ℕ} (t : Fin k) (h : (t : ℕ) < (flatNonzero w).length) :
    flatNonzeroSized w k t = (flatNonzero w).get ⟨t, h⟩ := by
  unfold flatNonzeroSized
  simp [List.getD_eq_getElem?_getD, h]

theorem sized_of_ge {N : ℕ} [NeZero N] {w : Fin N → K} {k : ℕ} (t : Fin k) (h : (flatNonzero w).length ≤ (t : ℕ)) :
    flatNonzeroSized w k t = argminFirst w := by
  unfold flatNonzeroSized
  simp [List.getD_eq_getElem?_getD, List.getElem?_eq_none h]

/-- Summation over the sized array equals summation over all entries. -/
theorem sum_sized {N : ℕ} [NeZero N] {w : Fin N → K} (hw : ∀ t, 0 ≤ w t) {k : ℕ} (hk : (flatNonzero w).length ≤ k) (hkN : k ≤ N)
    (g : Fin N → K) : ∑ t : Fin k, w (flatNonzeroSized w k t) * g (flatNonzeroSized w k t) = ∑ t, w t * g t := by
  have h1 : ∑ t, w t * g t = ((flatNonzero w).map (fun t => w t * g t)).sum := by
    rw [← List.sum_toFinset _ (nodup_flatNonzero w)]
    symm
    refine Finset.sum_subset (Finset.subset_univ _) (fun t _ ht => ?_)
    rw [List.mem_toFinset, mem_flatNonzero, not_not] at ht
    rw [ht, zero_mul]
  rw [h1]
  set L := flatNonzero w with hL
  have h2 : ∑ t : Fin k, w (flatNonzeroSized w k t) * g (flatNonzeroSized w k t)
      = ∑ t ∈ Finset.range k, (fun i => if h : i < L.length then w (L.get ⟨i, h⟩) * g (L.get ⟨i, h⟩) else 0) t := by
    rw [Finset.sum_range]
    refine Finset.sum_congr rfl fun t _ => ?_
    split_ifs with h
    · rw [sized_of_lt t h]
    · rw [sized_of_ge t (not_lt.1 h), fill_zero hw (by have := t.2; rw [← hL]; omega), zero_mul]
  rw [h2]
  obtain ⟨p, rfl⟩ := Nat.exists_eq_add_of_le hk
  rw [Finset.sum_range_add]
  have h3 : ∑ x ∈ Finset.range p, (fun i => if h : i < L.length then w (L.get ⟨i, h⟩) * g (L.get ⟨i, h⟩) else 0) (L.length + x) = 0 := by
    refine Finset.sum_eq_zero fun x _ => ?_
    simp
  rw [h3, add_zero, Finset.sum_range]
  rw [← List.sum_ofFn]
  congr 1
  conv_rhs => rw [← List.ofFn_get L]
  rw [List.map_ofFn]
  congr 1
  funext i
  simp

theorem ofFn_sized {N : ℕ} [NeZero N] (w : Fin N → K) {k : ℕ} (hk : (flatNonzero w).length ≤ k) {α : Type*} (f : Fin N → α) :
    List.ofFn (fun t : Fin k => f (flatNonzeroSized w k t))
      = (flatNonzero w).map f ++ List.replicate (k - (flatNonzero w).length) (f (argminFirst w)) := by
  apply List.ext_getElem
  · simp; omega
  · intro i h1 h2
    have hik : i < k := by simpa using h1
    rw [List.getElem_ofFn]
    by_cases hi : i < (flatNonzero w).length
    · rw [List.getElem_append_left (by simpa using hi), sized_of_lt ⟨i, hik⟩ hi]
      simp
    · rw [List.getElem_append_right (by simpa using hi), sized_of_ge ⟨i, hik⟩ (by simpa using hi)]
      simp

/-- The entries of non-zero weight of the output, in every mode. -/
theorem support_coresubsetNodes {N : ℕ} [NeZero N] (w : Fin N → K) (hw : ∀ t, 0 ≤ w t) (indices : Fin N → ℤ) {a b : ℕ}
    (hab : (flatNonzero w).length ≤ min a b) (ha : a ≤ N) (mode : RecombMode) :
    support (coresubsetNodes a b w indices mode).2 = (flatNonzero w).map (fun t => (indices t, w t)) := by
  have key : ∀ k, (flatNonzero w).length ≤ k → k ≤ N →
      (List.ofFn (fun t : Fin k => (indices (flatNonzeroSized w k t), w (flatNonzeroSized w k t)))).filter (fun p => p.2 ≠ 0)
        = (flatNonzero w).map (fun t => (indices t, w t)) := by
    intro k hk hkN
    rw [ofFn_sized w hk (fun t => (indices t, w t)), List.filter_append]
    have h1 : ((flatNonzero w).map (fun t => (indices t, w t))).filter (fun p => p.2 ≠ 0)
        = (flatNonzero w).map (fun t => (indices t, w t)) := by
      rw [List.filter_eq_self]
      intro p hp
      obtain ⟨t, ht, rfl⟩ := List.mem_map.1 hp
      simpa using mem_flatNonzero.1 ht
    have h2 : (List.replicate (k - (flatNonzero w).length) (indices (argminFirst w), w (argminFirst w))).filter
        (fun p => p.2 ≠ 0) = [] := by
      rw [List.filter_eq_nil_iff]
      intro p hp
      obtain ⟨hne, rfl⟩ := List.mem_replicate.1 hp
      have := fill_zero hw (w := w) (by omega)
      simp [this]
    rw [h1, h2, List.append_nil]
  cases mode with
  | implicitExplicit => exact key (min a b) hab ((min_le_left a b).trans ha)
  | implicit => exact key a (hab.trans (min_le_left a b)) ha
  | explicit =>
    unfold support coresubsetNodes
    simp only
    rw [show List.ofFn (fun t => (indices ((flatNonzero w).get t), w ((flatNonzero w).get t)))
      = (flatNonzero w).map (fun t => (indices t, w t)) by
        conv_rhs => rw [← List.ofFn_get (flatNonzero w), List.map_ofFn]
        rfl]
    rw [List.filter_eq_self]
    intro p hp
    obtain ⟨t, ht, rfl⟩ := List.mem_map.1 hp
    simpa using mem_flatNonzero.1 ht

/-- Integrals against the output, in every mode. -/
theorem integral_coresubsetNodes {N : ℕ} [NeZero N] (w : Fin N → K) (hw : ∀ t, 0 ≤ w t) (indices : Fin N → ℤ) {a b : ℕ}
    (hab : (flatNonzero w).length ≤ min a b) (ha : a ≤ N) (mode : RecombMode) (g : ℤ → K) :
    integral (coresubsetNodes a b w indices mode).2 g = ∑ t, w t * g (indices t) := by
  cases mode with
  | implicitExplicit => exact sum_sized (k := min a b) hw hab ((min_le_left a b).trans ha) (fun t => g (indices t))
  | implicit => exact sum_sized (k := a) hw (hab.trans (min_le_left a b)) ha (fun t => g (indices t))
  | explicit =>
    have h := sum_sized hw (k := (flatNonzero w).length) le_rfl (by omega) (fun t => g (indices t))
    rw [← h]
    unfold integral coresubsetNodes
    refine Finset.sum_congr rfl fun t _ => ?_
    rw [sized_of_lt t t.2]

/-- Every entry of the output is an entry of the input. -/
theorem coresubsetNodes_mem {N : ℕ} [NeZero N] (w : Fin N → K) (indices : Fin N → ℤ) (a b : ℕ) (mode : RecombMode)
    (t : Fin (coresubsetNodes a b w indices mode).1) : ∃ s, (coresubsetNodes a b w indices mode).2.data t = indices s ∧
      (coresubsetNodes a b w indices mode).2.weights t = w s := by
  cases mode with
  | implicitExplicit => exact ⟨_, rfl, rfl⟩
  | implicit => exact ⟨_, rfl, rfl⟩
  | explicit => exact ⟨_, rfl, rfl⟩

/-! ### Independence -/

theorem indepOn_card_le {nodes : Fin n → Fin m → K} {keep : Fin n → Prop} [DecidablePred keep] (h : IndepOn nodes keep) :
    (Finset.univ.filter keep).card ≤ m := by
  have hli : LinearIndependent K (fun j : {j // keep j} => nodes j) := by
    rw [Fintype.linearIndependent_iff]
    intro g hg i
    have := h (fun j => if hj : keep j then g ⟨j, hj⟩ else 0) (fun j hj => by simp [hj]) (fun l => ?_) i
    · simpa [i.2] using this
    · have h1 := congrFun hg l
      simp only [Finset.sum_apply, Pi.smul_apply, smul_eq_mul, Pi.zero_apply] at h1
      refine Eq.trans ?_ h1
      have e : ∀ x : {j // keep j}, g x * nodes x l = (fun j => (if hj : keep j then g ⟨j, hj⟩ else 0) * nodes j l) x := by
        intro x
        simp [x.2]
      simp only [e]
      rw [← Finset.sum_subtype (Finset.univ.filter keep) (fun j => by simp)
        (fun j => (if hj : keep j then g ⟨j, hj⟩ else 0) * nodes j l)]
      symm
      refine Finset.sum_subset (Finset.subset_univ _) (fun j _ hj => ?_)
      have hj' : ¬ keep j := by simpa using hj
      simp [hj']
  have := hli.fintype_card_le_finrank
  rw [Module.finrank_fin_fun, Fintype.card_subtype] at this
  exact this

/-- Distinct supported positions with independent nodes refer to distinct objects. -/
theorem indepOn_inj {N : ℕ} {α : Type*} {out : Fin N → K} {f : Fin N → α} {nodes : α → Fin m → K}
    (h : IndepOn (fun t => nodes (f t)) (fun t => out t ≠ 0)) {s t : Fin N} (hs : out s ≠ 0) (ht : out t ≠ 0) (hst : f s = f t) :
    s = t := by
  by_contra hne
  have hz := h (Pi.single s 1 - Pi.single t 1) (fun j hj => ?_) (fun l => ?_) s
  · rw [Pi.sub_apply, Pi.single_eq_same, Pi.single_eq_of_ne hne, sub_zero] at hz
    exact one_ne_zero hz
  · have hjs : j ≠ s := by rintro rfl; exact hj hs
    have hjt : j ≠ t := by rintro rfl; exact hj ht
    rw [Pi.sub_apply, Pi.single_eq_of_ne hjs, Pi.single_eq_of_ne hjt, sub_zero]
  · simp only [Pi.sub_apply, sub_mul, Finset.sum_sub_distrib]
    rw [Finset.sum_eq_single s, Finset.sum_eq_single t]
    · rw [Pi.single_eq_same, Pi.single_eq_same, hst, sub_self]
    · intro b _ hb; rw [Pi.single_eq_of_ne hb, zero_mul]
    · intro hk; exact absurd (Finset.mem_univ _) hk
    · intro b _ hb; rw [Pi.single_eq_of_ne hb, zero_mul]
    · intro hk; exact absurd (Finset.mem_univ _) hk

/-- Independence of the supported positions is independence of the rows they refer to. -/
theorem indep_rows {N : ℕ} {out : Fin N → K} {f : Fin N → Fin n} {nodes : Fin n → Fin m → K}
    (h : IndepOn (fun t => nodes (f t)) (fun t => out t ≠ 0)) {rows : Fin n → Prop}
    (hmem : ∀ i, rows i ↔ ∃ t, out t ≠ 0 ∧ f t = i) : IndepOn nodes rows := by
  intro z hz hzn i
  have key := h (fun t => if out t ≠ 0 then z (f t) else 0) (fun j hj => by simp [not_not.1 hj]) (fun l => ?_)
  · by_cases hi : rows i
    · obtain ⟨t, ht, rfl⟩ := (hmem i).1 hi
      have := key t
      simpa [ht] using this
    · exact hz i hi
  · refine Eq.trans ?_ (hzn l)
    have e1 : ∀ t, (if out t ≠ 0 then z (f t) else 0) * nodes (f t) l
        = if out t ≠ 0 then z (f t) * nodes (f t) l else 0 := by
      intro t
      split_ifs
      · rfl
      · rw [zero_mul]
    simp only [e1]
    rw [← Finset.sum_filter]
    refine Finset.sum_bij_ne_zero (fun t _ _ => f t) (fun _ _ _ => Finset.mem_univ _) ?_ ?_ (fun _ _ _ => rfl)
    · intro a ha _ b hb _ hab
      exact indepOn_inj h (Finset.mem_filter.1 ha).2 (Finset.mem_filter.1 hb).2 hab
    · intro i _ hi
      have hzi : z i ≠ 0 := fun hh => hi (by rw [hh, zero_mul])
      have hin : rows i := by
        by_contra hc
        exact hzi (hz i hc)
      obtain ⟨t, ht, rfl⟩ := (hmem i).1 hin
      exact ⟨t, Finset.mem_filter.2 ⟨Finset.mem_univ _, ht⟩, hi, rfl⟩

end Coreax
