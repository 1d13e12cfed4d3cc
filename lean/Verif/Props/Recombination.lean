import Verif.Lemmas.Recombination
import Mathlib.LinearAlgebra.Matrix.NonsingularInverse

/-!
# C24, C25, C26, C28: Caratheodory recombination (`coreax/solvers/recombination.py`)
-/

set_option linter.unusedSectionVars false

namespace Coreax

open Spec

variable {K : Type*} [Field K] [LinearOrder K] [IsStrictOrderedRing K] {n m : ℕ} [NeZero n]

/-! ### C28: co-linearisation -/

/-- C28: all replaced weights are positive, the replacement indices refer to nodes of positive weight, nodes of positive
weight stay where they are, and the integral of every function (so mass and centre of mass of every set of test functions)
is unchanged. -/
theorem C28_colinearize (w : Fin n → K) (hw : ∀ t, 0 ≤ w t) (h : ∃ t, 0 < w t) :
    (∀ t, 0 < colinWeights w t) ∧ (∀ t, 0 < w (colinIdx w t)) ∧ (∀ t, 0 < w t → colinIdx w t = t) ∧
    (∀ t s, ¬ 0 < w t → w s ≤ w (colinIdx w t)) ∧
    ∀ g : Fin n → K, ∑ t, colinWeights w t * g (colinIdx w t) = ∑ t, w t * g t := by
  refine ⟨colinWeights_pos h, colinIdx_pos h, fun t ht => by simp [colinIdx, ht], fun t s ht => ?_, colin_sum hw h⟩
  simp only [colinIdx, ht, if_false]
  exact (argmaxFirst_spec w s).1

example := C28_colinearize (![1/4, 0, 3/4, 0] : Fin 4 → ℚ) (by decide +kernel) ⟨0, by decide +kernel⟩

/-- Without zero weights nothing changes. -/
theorem C28_colinearize_id (w : Fin n → K) (hw : ∀ t, 0 < w t) : colinIdx w = id ∧ colinWeights w = w := by
  have h1 : colinIdx w = id := by funext t; simp [colinIdx, hw t]
  refine ⟨h1, ?_⟩
  have hz : nZeros w = 0 := by
    unfold nZeros
    rw [Finset.card_eq_zero, Finset.filter_eq_empty_iff]
    intro t _
    simpa using hw t
  funext t
  unfold colinWeights
  rw [h1, hz]
  by_cases ht : t = argmaxFirst w
  · subst ht; simp
  · rw [id, Function.update_of_ne ht]

example : List.ofFn (fun t => (colinIdx (![1/4, 0, 3/4, 0] : Fin 4 → ℚ) t : ℕ)) = [0, 2, 2, 2] ∧
    List.ofFn (colinWeights (![1/4, 0, 3/4, 0] : Fin 4 → ℚ)) = [1/4, 1/4, 1/4, 1/4] := by decide +kernel

/-! ### The null space from the singular value decomposition -/

/-- `_resolve_null_basis` is right: for an exact singular value decomposition whose cut-off separates the zero singular values
from the others, its rows are a basis of the left null space. -/
theorem C25_null_basis (svd : ∀ n m, (Fin n → Fin m → K) → SvdOut n m K) (eps : K) (rcond : Option K)
    (nodes : Fin n → Fin m → K) (h : IsSvd nodes (svd n m nodes))
    (hcut : ∀ i, svdCutoff eps rcond (svd n m nodes).s < (svd n m nodes).s i ↔ (svd n m nodes).s i ≠ 0) :
    NullBasis nodes (resolveNullBasis svd eps rcond n m nodes).1 (resolveNullBasis svd eps rcond n m nodes).2 := by
  set o := svd n m nodes with ho
  set mr := (Finset.univ.filter (fun i => svdCutoff eps rcond o.s < o.s i)).card with hmr
  have hbasis : (resolveNullBasis svd eps rcond n m nodes).1 = fun i j => o.q j i.rev := rfl
  have hr : (resolveNullBasis svd eps rcond n m nodes).2 = n - mr := rfl
  rw [hbasis, hr]
  have hmrn : mr ≤ min n m := by
    have := Finset.card_le_univ (Finset.univ.filter (fun i => svdCutoff eps rcond o.s < o.s i))
    simpa using this
  -- the non-zero singular values come first
  have hnz : ∀ i : Fin (min n m), (i : ℕ) < mr ↔ o.s i ≠ 0 := by
    have hset : Finset.univ.filter (fun i => svdCutoff eps rcond o.s < o.s i) = Finset.univ.filter (fun i => o.s i ≠ 0) :=
      Finset.filter_congr fun i _ => hcut i
    rw [hset] at hmr
    intro i
    constructor
    · intro hi hz
      have hsub : Finset.univ.filter (fun i => o.s i ≠ 0) ⊆ Finset.univ.filter (fun j : Fin (min n m) => j < i) := by
        intro j hj
        simp only [Finset.mem_filter, Finset.mem_univ, true_and] at hj ⊢
        by_contra hji
        have := h.anti i j (not_lt.1 hji)
        rw [hz] at this
        exact hj (le_antisymm this (h.nonneg j))
      have := Finset.card_le_card hsub
      rw [← hmr] at this
      have e : (Finset.univ.filter (fun j : Fin (min n m) => j < i)).card = i := by
        rw [show Finset.univ.filter (fun j : Fin (min n m) => j < i) = Finset.Iio i by ext; simp, Fin.card_Iio]
      omega
    · intro hi
      have hsub : Finset.univ.filter (fun j : Fin (min n m) => j ≤ i) ⊆ Finset.univ.filter (fun i => o.s i ≠ 0) := by
        intro j hj
        simp only [Finset.mem_filter, Finset.mem_univ, true_and] at hj ⊢
        intro hz
        have := h.anti j i hj
        rw [hz] at this
        exact hi (le_antisymm this (h.nonneg i))
      have := Finset.card_le_card hsub
      rw [← hmr] at this
      have e : (Finset.univ.filter (fun j : Fin (min n m) => j ≤ i)).card = i + 1 := by
        rw [show Finset.univ.filter (fun j : Fin (min n m) => j ≤ i) = Finset.Iic i by ext; simp, Fin.card_Iic]
      omega
  -- the product of a column of `q` with the nodes
  have hprod : ∀ (a : Fin n) (l : Fin m), ∑ j, o.q j a * nodes j l
      = ∑ i : Fin (min n m), (if Fin.castLE (Nat.min_le_left n m) i = a then o.s i * o.vt (Fin.castLE (Nat.min_le_right n m) i) l else 0) := by
    intro a l
    simp only [h.eq, Finset.mul_sum]
    rw [Finset.sum_comm]
    refine Finset.sum_congr rfl fun i _ => ?_
    have := h.orthoQ a (Fin.castLE (Nat.min_le_left n m) i)
    calc ∑ j, o.q j a * (o.q j (Fin.castLE (Nat.min_le_left n m) i) * o.s i * o.vt (Fin.castLE (Nat.min_le_right n m) i) l)
        = (∑ j, o.q j a * o.q j (Fin.castLE (Nat.min_le_left n m) i)) * (o.s i * o.vt (Fin.castLE (Nat.min_le_right n m) i) l) := by
          rw [Finset.sum_mul]; exact Finset.sum_congr rfl fun j _ => by ring
      _ = _ := by
          rw [this]
          by_cases hia : Fin.castLE (Nat.min_le_left n m) i = a
          · rw [if_pos hia, if_pos hia.symm, one_mul]
          · rw [if_neg hia, if_neg (fun hh => hia hh.symm), zero_mul]
  have hrows : ∀ j k, ∑ a, o.q j a * o.q k a = if j = k then 1 else 0 := by
    have h1 : (Matrix.of o.q).transpose * Matrix.of o.q = 1 := by
      ext a b
      rw [Matrix.mul_apply, Matrix.one_apply]
      exact h.orthoQ a b
    have h2 : Matrix.of o.q * (Matrix.of o.q).transpose = 1 := mul_eq_one_comm.1 h1
    intro j k
    have := congrFun (congrFun h2 j) k
    rwa [Matrix.mul_apply, Matrix.one_apply] at this
  refine ⟨Nat.sub_le _ _, fun i hi l => ?_, fun c hc hz => ?_, fun z hz => ?_⟩
  · change ∑ j, o.q j i.rev * nodes j l = 0
    rw [hprod]
    refine Finset.sum_eq_zero fun a _ => ?_
    split_ifs with ha
    · have hav : (a : ℕ) = n - 1 - i := by
        have := congrArg Fin.val ha
        simp only [Fin.val_castLE, Fin.val_rev] at this
        omega
      have : o.s a = 0 := by
        by_contra hne
        have := (hnz a).2 hne
        omega
      rw [this, zero_mul]
    · rfl
  · intro k
    have h1 : ∑ j, (∑ k', c k' * o.q j k'.rev) * o.q j k.rev = c k := by
      simp only [Finset.sum_mul]
      rw [Finset.sum_comm, Finset.sum_eq_single k]
      · simp only [mul_assoc]
        rw [← Finset.mul_sum, h.orthoQ, if_pos rfl, mul_one]
      · intro b _ hb
        simp only [mul_assoc]
        rw [← Finset.mul_sum, h.orthoQ, if_neg (fun hh => hb (Fin.rev_injective hh)), mul_zero]
      · intro hk; exact absurd (Finset.mem_univ k) hk
    rw [← h1]
    refine Finset.sum_eq_zero fun j _ => ?_
    rw [hz j, zero_mul]
  · obtain ⟨zc, hzc⟩ : ∃ zc : Fin n → K, ∀ j, z j = ∑ b, zc b * o.q j b := by
      refine ⟨fun b => ∑ j, z j * o.q j b, fun j => ?_⟩
      have e : z j = ∑ j', z j' * (if j = j' then 1 else 0) := by simp
      rw [e]
      simp only [← hrows, Finset.mul_sum, Finset.sum_mul]
      rw [Finset.sum_comm]
      exact Finset.sum_congr rfl fun a _ => Finset.sum_congr rfl fun j' _ => by ring
    refine ⟨fun k => zc k.rev, fun k hk => ?_, fun j => ?_⟩
    · -- the coefficient along a column with non-zero singular value vanishes
      have hk' : (k.rev : ℕ) < mr := by
        rw [Fin.val_rev]
        have := k.2
        omega
      have hmin : (k.rev : ℕ) < min n m := by omega
      have hsa : o.s ⟨k.rev, hmin⟩ ≠ 0 := (hnz _).1 hk'
      have ha : Fin.castLE (Nat.min_le_left n m) ⟨k.rev, hmin⟩ = k.rev := Fin.ext rfl
      generalize (⟨k.rev, hmin⟩ : Fin (min n m)) = a at hsa ha
      have h1 : ∀ l, ∑ b : Fin n, zc b * (∑ j, o.q j b * nodes j l) = 0 := by
        intro l
        rw [← hz l]
        simp only [Finset.mul_sum]
        rw [Finset.sum_comm]
        refine Finset.sum_congr rfl fun j _ => ?_
        rw [hzc j, Finset.sum_mul]
        exact Finset.sum_congr rfl fun b _ => by ring
      have h3 : ∀ l, ∑ i : Fin (min n m), zc (Fin.castLE (Nat.min_le_left n m) i) *
          (o.s i * o.vt (Fin.castLE (Nat.min_le_right n m) i) l) = 0 := by
        intro l
        rw [← h1 l]
        simp only [hprod, Finset.mul_sum]
        rw [Finset.sum_comm]
        refine Finset.sum_congr rfl fun i _ => ?_
        simp
      have h4 : ∑ l, (∑ i : Fin (min n m), zc (Fin.castLE (Nat.min_le_left n m) i) *
          (o.s i * o.vt (Fin.castLE (Nat.min_le_right n m) i) l)) * o.vt (Fin.castLE (Nat.min_le_right n m) a) l
          = zc (Fin.castLE (Nat.min_le_left n m) a) * o.s a := by
        have e : ∀ l, (∑ i : Fin (min n m), zc (Fin.castLE (Nat.min_le_left n m) i) *
            (o.s i * o.vt (Fin.castLE (Nat.min_le_right n m) i) l)) * o.vt (Fin.castLE (Nat.min_le_right n m) a) l
            = ∑ i : Fin (min n m), zc (Fin.castLE (Nat.min_le_left n m) i) * o.s i *
              (o.vt (Fin.castLE (Nat.min_le_right n m) i) l * o.vt (Fin.castLE (Nat.min_le_right n m) a) l) := by
          intro l
          rw [Finset.sum_mul]
          exact Finset.sum_congr rfl fun i _ => by ring
        simp only [e]
        rw [Finset.sum_comm]
        simp only [← Finset.mul_sum, h.orthoV]
        rw [Finset.sum_eq_single a]
        · rw [if_pos rfl, mul_one]
        · intro b _ hb
          rw [if_neg (fun hh => hb (Fin.castLE_injective _ hh)), mul_zero]
        · intro hk; exact absurd (Finset.mem_univ _) hk
      simp only [h3, zero_mul, Finset.sum_const_zero] at h4
      have h5 := (mul_eq_zero.1 h4.symm).resolve_right hsa
      rwa [ha] at h5
    · rw [hzc j]
      exact (Equiv.sum_comp Fin.revPerm (fun b => zc b * o.q j b)).symm

/-! ### C24, C25: Caratheodory recombination -/

/-- The nodes whose dependences are eliminated: the augmented push-forward after co-linearisation. -/
def caraNodes {X : Type*} (big : K) (test : X → Fin m → K) (d : Data n X K) : Fin n → Fin (m + 1) → K :=
  fun t => augment (test (d.data (colinIdx (d.normalizePZ big).weights t)))

theorem normalized_pos (big : K) {X : Type*} (d : Data n X K) (hw : ∀ t, 0 ≤ d.weights t) (hpos : ∃ t, 0 < d.weights t) :
    (∀ t, (d.normalizePZ big).weights t = d.weights t / ∑ j, d.weights j) ∧ (0 < ∑ j, d.weights j) ∧
    (∀ t, 0 ≤ (d.normalizePZ big).weights t) ∧ (∃ t, 0 < (d.normalizePZ big).weights t) ∧
    (∀ t, 0 < (d.normalizePZ big).weights t ↔ 0 < d.weights t) := by
  obtain ⟨t0, ht0⟩ := hpos
  have hs : 0 < ∑ j, d.weights j := Finset.sum_pos' (fun j _ => hw j) ⟨t0, Finset.mem_univ _, ht0⟩
  have e : ∀ t, (d.normalizePZ big).weights t = d.weights t / ∑ j, d.weights j := normWeightsPZ_of_sum_ne big hs.ne'
  refine ⟨e, hs, fun t => by rw [e]; exact div_nonneg (hw t) hs.le, ⟨t0, by rw [e]; exact div_pos ht0 hs⟩, fun t => ?_⟩
  rw [e]
  exact div_pos_iff_of_pos_right hs

/-- What the elimination computes. -/
theorem caraWeights_spec {X : Type*} (big : K) (null : NullResolver K) (test : X → Fin m → K) (d : Data n X K)
    (hw : ∀ t, 0 ≤ d.weights t) (hpos : ∃ t, 0 < d.weights t)
    (hnull : NullBasis (caraNodes big test d) (null n (m + 1) (caraNodes big test d)).1 (null n (m + 1) (caraNodes big test d)).2) :
    ∃ out : Fin n → K, caraWeights big null test d = some out ∧ (∀ t, 0 ≤ out t) ∧
      (∀ l, ∑ t, out t * caraNodes big test d t l = ∑ t, d.weights t / (∑ j, d.weights j) * augment (test (d.data t)) l) ∧
      (Finset.univ.filter (fun t => out t ≠ 0)).card ≤ n - (null n (m + 1) (caraNodes big test d)).2 ∧
      IndepOn (caraNodes big test d) (fun t => out t ≠ 0) := by
  obtain ⟨e, hs, hnn, hp, -⟩ := normalized_pos big d hw hpos
  set w := (d.normalizePZ big).weights with hwdef
  obtain ⟨st, E, h1, h2⟩ := elimLoop_spec (nodes := caraNodes big test d) ⟨0, fun j => rfl⟩
    (w0 := colinWeights w) (fun j => (colinWeights_pos hp j).le) hnull
  refine ⟨st.weights, ?_, h2.nonneg, fun l => ?_, ?_, ?_⟩
  · unfold caraWeights
    simp only
    rw [show (fun t => augment (test (d.data (colinIdx (d.normalizePZ big).weights t)))) = caraNodes big test d from rfl, h1]
    rfl
  · rw [h2.sum l]
    have := colin_sum hnn hp (fun t => augment (test (d.data t)) l)
    simp only [e] at this
    exact this
  · have hsub : Finset.univ.filter (fun t => st.weights t ≠ 0) ⊆ Finset.univ \ E := by
      intro t ht
      simp only [Finset.mem_filter, Finset.mem_univ, true_and] at ht
      simp only [Finset.mem_sdiff, Finset.mem_univ, true_and]
      exact fun hE => ht (h2.gone t hE).1
    have := Finset.card_le_card hsub
    rw [Finset.card_sdiff_of_subset (Finset.subset_univ E), h2.card, Finset.card_univ, Fintype.card_fin] at this
    exact this
  · intro z hz hzn
    obtain ⟨c, hc, hcz⟩ := h2.span z hzn (fun t hE => hz t (by simpa using (h2.gone t hE).1))
    have hc0 : ∀ k, c k = 0 := fun k => hc k (by omega)
    intro j
    rw [hcz j]
    exact Finset.sum_eq_zero fun k _ => by rw [hc0 k, zero_mul]

/-- C24: for non-negative weights that are not all zero and a correct null-space basis, in every output mode, the coreset
exists, has non-negative weights of total mass one, refers to rows of positive weight, and every test function has the same
weighted mean over the coreset as over the data. -/
theorem C24_caratheodory {X : Type*} (big : K) (null : NullResolver K) (test : X → Fin m → K) (mode : RecombMode)
    (d : Data n X K) (hw : ∀ t, 0 ≤ d.weights t) (hpos : ∃ t, 0 < d.weights t)
    (hnull : NullBasis (caraNodes big test d) (null n (m + 1) (caraNodes big test d)).1 (null n (m + 1) (caraNodes big test d)).2) :
    ∃ (k : ℕ) (c : Data k ℤ K), caraReduce big null test mode d = some ⟨k, c⟩ ∧ k ≤ n ∧ (∀ t, 0 ≤ c.weights t) ∧
      (∀ t, ∃ i : Fin n, c.data t = ((i : ℕ) : ℤ) ∧ 0 < d.weights i) ∧ ∑ t, c.weights t = 1 ∧
      ∀ l, ∑ t, c.weights t * test (d.data (gatherIdx n (c.data t))) l
        = (∑ t, d.weights t * test (d.data t) l) / ∑ t, d.weights t := by
  obtain ⟨out, h1, h2, h3, h4, h5⟩ := caraWeights_spec big null test d hw hpos hnull
  obtain ⟨e, hs, hnn, hp, hiff⟩ := normalized_pos big d hw hpos
  set w := (d.normalizePZ big).weights with hwdef
  set idx : Fin n → ℤ := fun t => ((colinIdx w t : ℕ) : ℤ) with hidx
  have hlen : (flatNonzero out).length ≤ min n (m + 1) := by
    rw [length_flatNonzero]
    refine le_min ?_ (indepOn_card_le h5)
    have := Finset.card_le_univ (Finset.univ.filter (fun t => out t ≠ 0))
    simpa using this
  have hint := fun g => integral_coresubsetNodes out h2 idx hlen le_rfl mode g
  refine ⟨_, (coresubsetNodes n (m + 1) out idx mode).2, ?_, ?_, ?_, ?_, ?_, ?_⟩
  · unfold caraReduce
    rw [h1]
    rfl
  · cases mode with
    | implicitExplicit => exact min_le_left _ _
    | implicit => exact le_rfl
    | explicit => exact hlen.trans (min_le_left _ _)
  · intro t
    obtain ⟨s, -, hs⟩ := coresubsetNodes_mem out idx n (m + 1) mode t
    rw [hs]
    exact h2 s
  · intro t
    obtain ⟨s, hs, -⟩ := coresubsetNodes_mem out idx n (m + 1) mode t
    exact ⟨_, hs, (hiff _).1 (colinIdx_pos hp s)⟩
  · have h6 := hint (fun _ => 1)
    unfold integral at h6
    simp only [mul_one] at h6
    rw [h6]
    have h7 := h3 0
    simp only [caraNodes, augment, Fin.cons_zero, mul_one] at h7
    rw [h7, ← Finset.sum_div, div_self hs.ne']
  · intro l
    have h6 := hint (fun i => test (d.data (gatherIdx n i)) l)
    unfold integral at h6
    rw [h6]
    have h7 := h3 l.succ
    simp only [caraNodes, augment, Fin.cons_succ] at h7
    rw [← hwdef] at h7
    simp only [hidx, gatherIdx_coe]
    rw [h7, Finset.sum_div]
    exact Finset.sum_congr rfl fun t _ => by ring

/-- The distinct indices with positive weight of a coreset. -/
def Spec.supportRows {k : ℕ} (c : Data k ℤ K) : List ℤ := (support c).map Prod.fst

/-- C25: in every output mode the rows of positive weight are distinct, at most `n - r` many for an `r`-dimensional null
space, at most the number of test functions including the constant one, and affinely independent under the test functions
(no non-trivial affine dependence among their images). -/
theorem C25_support {X : Type*} (big : K) (null : NullResolver K) (test : X → Fin m → K) (mode : RecombMode)
    (d : Data n X K) (hw : ∀ t, 0 ≤ d.weights t) (hpos : ∃ t, 0 < d.weights t)
    (hnull : NullBasis (caraNodes big test d) (null n (m + 1) (caraNodes big test d)).1 (null n (m + 1) (caraNodes big test d)).2) :
    ∃ (k : ℕ) (c : Data k ℤ K), caraReduce big null test mode d = some ⟨k, c⟩ ∧ (supportRows c).Nodup ∧
      (supportRows c).length ≤ n - (null n (m + 1) (caraNodes big test d)).2 ∧ (supportRows c).length ≤ m + 1 ∧
      IndepOn (fun i => augment (test (d.data i))) (fun i : Fin n => ((i : ℕ) : ℤ) ∈ supportRows c) := by
  obtain ⟨out, h1, h2, h3, h4, h5⟩ := caraWeights_spec big null test d hw hpos hnull
  obtain ⟨e, hs, hnn, hp, hiff⟩ := normalized_pos big d hw hpos
  set w := (d.normalizePZ big).weights with hwdef
  set idx : Fin n → ℤ := fun t => ((colinIdx w t : ℕ) : ℤ) with hidx
  have hm1 := indepOn_card_le h5
  have hlen : (flatNonzero out).length ≤ min n (m + 1) := by
    rw [length_flatNonzero]
    refine le_min ?_ hm1
    have := Finset.card_le_univ (Finset.univ.filter (fun t => out t ≠ 0))
    simpa using this
  have hsup := support_coresubsetNodes out h2 idx hlen le_rfl mode
  have hrows : supportRows (coresubsetNodes n (m + 1) out idx mode).2 = (flatNonzero out).map idx := by
    unfold supportRows
    rw [hsup, List.map_map]
    rfl
  -- two supported positions never refer to the same row
  have hinj : ∀ s t, out s ≠ 0 → out t ≠ 0 → colinIdx w s = colinIdx w t → s = t :=
    fun s t hso hto hst => indepOn_inj (nodes := fun i => augment (test (d.data i))) (f := colinIdx w) h5 hso hto hst
  refine ⟨_, (coresubsetNodes n (m + 1) out idx mode).2, ?_, ?_, ?_, ?_, ?_⟩
  · unfold caraReduce
    rw [h1]
    rfl
  · rw [hrows]
    refine List.Nodup.map_on ?_ (nodup_flatNonzero out)
    intro s hs' t ht hst
    refine hinj s t (mem_flatNonzero.1 hs') (mem_flatNonzero.1 ht) (Fin.ext ?_)
    have hst' : ((colinIdx w s : ℕ) : ℤ) = ((colinIdx w t : ℕ) : ℤ) := hst
    exact_mod_cast hst'
  · rw [hrows, List.length_map, length_flatNonzero]
    exact h4
  · rw [hrows, List.length_map, length_flatNonzero]
    exact hm1
  · refine indep_rows (nodes := fun i => augment (test (d.data i))) (f := colinIdx w) h5 (fun i => ?_)
    rw [hrows, List.mem_map]
    constructor
    · rintro ⟨t, ht, hti⟩
      refine ⟨t, mem_flatNonzero.1 ht, Fin.ext ?_⟩
      have : ((colinIdx w t : ℕ) : ℤ) = ((i : ℕ) : ℤ) := hti
      exact_mod_cast this
    · rintro ⟨t, ht, rfl⟩
      exact ⟨t, mem_flatNonzero.2 ht, rfl⟩

/-- Every elimination removes one more node, for good: after all `r` of them there are `r` distinct nodes of weight zero;
a removed node never comes back. -/
theorem C25_progress {nodes : Fin n → Fin m → K} (hone : ∃ l, ∀ j, nodes j l = 1) {w0 : Fin n → K} (hw : ∀ j, 0 ≤ w0 j)
    {basis : Fin n → Fin n → K} {r : ℕ} (hb : NullBasis nodes basis r) (i : ℕ) (hi : i ≤ r) :
    ∃ (st : ElimState n K) (E : Finset (Fin n)), elimLoop i ⟨w0, basis⟩ = some st ∧ E.card = i ∧ (∀ e ∈ E, st.weights e = 0) ∧
      (∀ j, 0 ≤ st.weights j) ∧
      (i < r → ∃ b st', b ∉ E ∧ elimLoop (i + 1) ⟨w0, basis⟩ = some st' ∧ ∀ e ∈ insert b E, st'.weights e = 0) := by
  have key : ∀ i, i ≤ r → ∃ (st : ElimState n K) (E : Finset (Fin n)), elimLoop i ⟨w0, basis⟩ = some st ∧ ElimInv nodes w0 r i E st := by
    intro i
    induction i with
    | zero =>
      intro _
      refine ⟨_, ∅, rfl, rfl, hw, fun _ => rfl, fun k _ hk => hb.null k hk, fun c hc => hb.indep c fun k hk => hc k (Or.inr hk),
        by simp, fun z hz _ => ?_⟩
      obtain ⟨c, h1, h2⟩ := hb.span z hz
      exact ⟨c, fun k hk => h1 k (by omega), h2⟩
    | succ i ih =>
      intro hi
      obtain ⟨st, E, h1, h2⟩ := ih (by omega)
      obtain ⟨b, st', h3, -, h4⟩ := eliminate_inv (fun _ hv hne => exists_pos_of_null hone hv hne) (by omega) hb.le h2
      refine ⟨st', _, ?_, h4⟩
      unfold elimLoop at h1 ⊢
      simp only [forLoop]
      simp only [Fin.val_castSucc, Fin.val_last]
      rw [h1]
      exact h3
  obtain ⟨st, E, h1, h2⟩ := key i hi
  refine ⟨st, E, h1, h2.card, fun e he => (h2.gone e he).1, h2.nonneg, fun hir => ?_⟩
  obtain ⟨b, st', h3, h4, h5⟩ := eliminate_inv (fun _ hv hne => exists_pos_of_null hone hv hne) hir hb.le h2
  refine ⟨b, st', h4, ?_, fun e he => (h5.gone e he).1⟩
  unfold elimLoop at h1 ⊢
  simp only [forLoop, Fin.val_castSucc, Fin.val_last]
  rw [h1]
  exact h3

/-! ### C26: output modes -/

/-- C26: if at most `min n m` of the weights are non-zero, the three modes return the same weighted rows in the same order
besides entries of weight zero; `implicit` has length `n`, `implicit-explicit` has length `min n m`, `explicit` has no entry
of weight zero. -/
theorem C26_modes {N : ℕ} [NeZero N] (a b : ℕ) (w : Fin N → K) (hw : ∀ t, 0 ≤ w t) (indices : Fin N → ℤ)
    (h : (Finset.univ.filter (fun t => w t ≠ 0)).card ≤ min a b) (ha : a ≤ N) :
    (∀ mode mode', support (coresubsetNodes a b w indices mode).2 = support (coresubsetNodes a b w indices mode').2) ∧
    (∀ mode, support (coresubsetNodes a b w indices mode).2
      = ((List.finRange N).filter (fun t => w t ≠ 0)).map (fun t => (indices t, w t))) ∧
    (∀ mode g, integral (coresubsetNodes a b w indices mode).2 g = ∑ t, w t * g (indices t)) ∧
    (coresubsetNodes a b w indices .implicit).1 = a ∧ (coresubsetNodes a b w indices .implicitExplicit).1 = min a b ∧
    ∀ t, (coresubsetNodes a b w indices .explicit).2.weights t ≠ 0 := by
  rw [← length_flatNonzero] at h
  have key := fun mode => support_coresubsetNodes w hw indices h ha mode
  refine ⟨fun mode mode' => by rw [key, key], key, integral_coresubsetNodes w hw indices h ha, rfl, rfl, fun t => ?_⟩
  have := mem_flatNonzero.1 (List.get_mem (flatNonzero w) t)
  exact this

example := C26_modes 4 2 (![1/4, 0, 3/4, 0, 0] : Fin 5 → ℚ) (by decide +kernel) ![7, 8, 9, 7, 7] (by decide +kernel) (by norm_num)

/-- Applied to Caratheodory recombination: all modes represent the same measure. -/
theorem C26_caratheodory {X : Type*} (big : K) (null : NullResolver K) (test : X → Fin m → K)
    (d : Data n X K) (hw : ∀ t, 0 ≤ d.weights t) (hpos : ∃ t, 0 < d.weights t)
    (hnull : NullBasis (caraNodes big test d) (null n (m + 1) (caraNodes big test d)).1 (null n (m + 1) (caraNodes big test d)).2) :
    ∃ L : List (ℤ × K), ∀ mode, ∃ (k : ℕ) (c : Data k ℤ K), caraReduce big null test mode d = some ⟨k, c⟩ ∧ support c = L ∧
      (mode = .explicit → k = L.length) ∧ (mode = .implicit → k = n) ∧ (mode = .implicitExplicit → k = min n (m + 1)) := by
  obtain ⟨out, h1, h2, -, -, h5⟩ := caraWeights_spec big null test d hw hpos hnull
  have hlen : (flatNonzero out).length ≤ min n (m + 1) := by
    rw [length_flatNonzero]
    refine le_min ?_ (indepOn_card_le h5)
    have := Finset.card_le_univ (Finset.univ.filter (fun t => out t ≠ 0))
    simpa using this
  refine ⟨_, fun mode => ⟨_, _, ?_, support_coresubsetNodes out h2 (fun t => ((colinIdx (d.normalizePZ big).weights t : ℕ) : ℤ)) hlen le_rfl mode,
    ?_, ?_, ?_⟩⟩
  · unfold caraReduce
    rw [h1]
    rfl
  · rintro rfl; simp [coresubsetNodes]
  · rintro rfl; rfl
  · rintro rfl; rfl

/-- Only the three documented modes are accepted, each as the mode of its name; all others are refused with `ValueError`. -/
theorem C26_check_init (mode : String) :
    (∀ md, recombCheckInit mode = .ok md ↔
      (mode, md) ∈ [("implicit-explicit", RecombMode.implicitExplicit), ("implicit", .implicit), ("explicit", .explicit)]) ∧
    (mode ∉ ["implicit-explicit", "implicit", "explicit"] → recombCheckInit mode = .error .valueError) := by
  unfold recombCheckInit
  by_cases h1 : mode = "implicit-explicit"
  · simp [h1, eq_comm]
  by_cases h2 : mode = "implicit"
  · simp [h2, eq_comm]
  by_cases h3 : mode = "explicit"
  · simp [h3, eq_comm]
  simp [h1, h2, h3]

end Coreax
