import Verif.Props.Recombination

/-!
# Lemmas on tree recombination: sorting, clusters, one level
-/

set_option linter.unusedSectionVars false

namespace Coreax

open Spec

variable {K : Type*} [Field K] [LinearOrder K] [IsStrictOrderedRing K]

/-! ### Sorting -/

theorem rankOf_lt {N : ℕ} {w : Fin N → K} {s t : Fin N} (h : w s < w t ∨ (w s = w t ∧ s < t)) : rankOf w s < rankOf w t := by
  unfold rankOf
  apply Finset.card_lt_card
  rw [Finset.ssubset_iff_of_subset]
  · refine ⟨s, by simpa using h, by simp⟩
  · intro x hx
    simp only [Finset.mem_filter, Finset.mem_univ, true_and] at hx ⊢
    rcases hx with hx | ⟨hx, hxs⟩
    · rcases h with h | ⟨h, -⟩
      · exact Or.inl (hx.trans h)
      · exact Or.inl (h ▸ hx)
    · rcases h with h | ⟨h, hst⟩
      · exact Or.inl (hx ▸ h)
      · exact Or.inr ⟨hx.trans h, hxs.trans hst⟩

theorem rankOf_lt_card {N : ℕ} (w : Fin N → K) (t : Fin N) : rankOf w t < N := by
  unfold rankOf
  have : (Finset.univ.filter (fun s => w s < w t ∨ (w s = w t ∧ s < t))).card < (Finset.univ : Finset (Fin N)).card := by
    apply Finset.card_lt_card
    rw [Finset.ssubset_iff_of_subset (Finset.filter_subset _ _)]
    exact ⟨t, Finset.mem_univ _, by simp⟩
  simpa using this

theorem rankOf_inj {N : ℕ} (w : Fin N → K) : Function.Injective (rankOf w) := by
  intro s t h
  rcases lt_trichotomy (w s) (w t) with hw | hw | hw
  · exact absurd h (rankOf_lt (Or.inl hw)).ne
  · rcases lt_trichotomy s t with hs | hs | hs
    · exact absurd h (rankOf_lt (Or.inr ⟨hw, hs⟩)).ne
    · exact hs
    · exact absurd h (rankOf_lt (Or.inr ⟨hw.symm, hs⟩)).ne'
  · exact absurd h (rankOf_lt (Or.inl hw)).ne'

theorem rankOf_surj {N : ℕ} (w : Fin N → K) (p : Fin N) : ∃ t, rankOf w t = p := by
  have hinj : Function.Injective (fun t => (⟨rankOf w t, rankOf_lt_card w t⟩ : Fin N)) :=
    fun s t h => rankOf_inj w (by simpa using h)
  obtain ⟨t, ht⟩ := (Finite.injective_iff_surjective.1 hinj) p
  exact ⟨t, by simpa using congrArg Fin.val ht⟩

theorem rankOf_argsort {N : ℕ} [NeZero N] (w : Fin N → K) (p : Fin N) : rankOf w (argsort w p) = p := by
  unfold argsort
  obtain ⟨t, ht⟩ := rankOf_surj w p
  rcases h : (List.finRange N).find? (fun t => decide (rankOf w t = p)) with _ | s
  · rw [List.find?_eq_none] at h
    have := h t (List.mem_finRange t)
    simp [ht] at this
  · have := List.find?_some h
    simpa using this

/-- `argsort` is a rearrangement. -/
theorem argsort_bijective {N : ℕ} [NeZero N] (w : Fin N → K) : Function.Bijective (argsort w) := by
  rw [← Finite.injective_iff_bijective]
  intro p p' h
  have := congrArg (rankOf w) h
  rw [rankOf_argsort, rankOf_argsort] at this
  exact Fin.ext this

/-- `argsort` sorts. -/
theorem argsort_mono {N : ℕ} [NeZero N] (w : Fin N → K) {p p' : Fin N} (h : p ≤ p') : w (argsort w p) ≤ w (argsort w p') := by
  by_contra hc
  have := rankOf_lt (w := w) (Or.inl (not_le.1 hc))
  rw [rankOf_argsort, rankOf_argsort] at this
  exact absurd h (not_le.2 this)

/-! ### Clusters -/

variable {m count rows : ℕ} [NeZero count] [NeZero rows] [NeZero (rows * count)]

theorem centroidIdx_bijective (w : Fin (rows * count) → K) :
    Function.Bijective (fun x : Fin rows × Fin count => centroidIdx w x.2 x.1) := by
  have : (fun x : Fin rows × Fin count => centroidIdx w x.2 x.1) = argsort w ∘ finProdFinEquiv := rfl
  rw [this]
  exact (argsort_bijective w).comp finProdFinEquiv.bijective

theorem centroidIdx_inj {w : Fin (rows * count) → K} {q q' : Fin count} {j j' : Fin rows}
    (h : centroidIdx w q j = centroidIdx w q' j') : q = q' ∧ j = j' := by
  have := (centroidIdx_bijective w).1 (a₁ := (j, q)) (a₂ := (j', q')) h
  exact ⟨(Prod.ext_iff.1 this).2, (Prod.ext_iff.1 this).1⟩

theorem sum_centroidIdx (w : Fin (rows * count) → K) (f : Fin (rows * count) → K) :
    ∑ q, ∑ j, f (centroidIdx w q j) = ∑ p, f p := by
  rw [Finset.sum_comm, ← Fintype.sum_prod_type']
  exact (centroidIdx_bijective w).sum_comp f

theorem sum_fOrder (f : Fin rows → Fin count → K) :
    ∑ p : Fin (rows * count), f (finProdFinEquiv.symm p).1 (finProdFinEquiv.symm p).2 = ∑ q, ∑ j, f j q := by
  rw [Finset.sum_comm, ← Fintype.sum_prod_type']
  exact Equiv.sum_comp finProdFinEquiv.symm (fun x : Fin rows × Fin count => f x.1 x.2)

/-- Sorting balances the clusters: if at most `count * R` entries are non-zero, each cluster has at most `R` of them. -/
theorem cluster_balanced {w : Fin (rows * count) → K} (hw : ∀ p, 0 ≤ w p) {R : ℕ}
    (h : (Finset.univ.filter (fun p => w p ≠ 0)).card ≤ count * R) (q : Fin count) :
    (Finset.univ.filter (fun j => w (centroidIdx w q j) ≠ 0)).card ≤ R := by
  have key : ∀ j, w (centroidIdx w q j) ≠ 0 → rows ≤ (j : ℕ) + R := by
    intro j hj
    set p := fOrder q j with hp
    have hsub : Finset.univ.filter (fun p' => p ≤ p') ⊆ Finset.univ.filter (fun p' => w (argsort w p') ≠ 0) := by
      intro p' hp'
      simp only [Finset.mem_filter, Finset.mem_univ, true_and] at hp' ⊢
      have h1 := argsort_mono w hp'
      have h2 : 0 < w (argsort w p) := lt_of_le_of_ne (hw _) (Ne.symm hj)
      exact (lt_of_lt_of_le h2 h1).ne'
    have hcard : (Finset.univ.filter (fun p' => w (argsort w p') ≠ 0)).card = (Finset.univ.filter (fun p => w p ≠ 0)).card := by
      refine Finset.card_bij (fun p' _ => argsort w p') ?_ ?_ ?_
      · intro a ha; simpa using ha
      · intro a _ b _ hab; exact (argsort_bijective w).1 hab
      · intro b hb
        obtain ⟨a, rfl⟩ := (argsort_bijective w).2 b
        exact ⟨a, by simpa using hb, rfl⟩
    have h1 := (Finset.card_le_card hsub).trans (hcard.le.trans h)
    have h2 : (Finset.univ.filter (fun p' => p ≤ p')).card = rows * count - p := by
      rw [show Finset.univ.filter (fun p' => p ≤ p') = Finset.Ici p by ext; simp, Fin.card_Ici]
    rw [h2] at h1
    have hpv : (p : ℕ) = q + count * j := rfl
    have hq := q.2
    by_contra hc
    have h3 : (j : ℕ) + 1 + R ≤ rows := by omega
    have h4 : ((j : ℕ) + 1 + R) * count ≤ rows * count := Nat.mul_le_mul_right _ h3
    have h5 : ((j : ℕ) + 1 + R) * count = count * j + count + count * R := by ring
    omega
  have hle : (Finset.univ.filter (fun j => w (centroidIdx w q j) ≠ 0)).card ≤ (Finset.range R).card := by
    refine Finset.card_le_card_of_injOn (fun j => rows - 1 - (j : ℕ)) ?_ ?_
    · intro j hj
      have := key j (by simpa using hj)
      have h2 := j.2
      simp only [Finset.coe_range, Set.mem_Iio]
      omega
    · intro a _ b _ hab
      have h1 := a.2
      have h2 := b.2
      simp only at hab
      exact Fin.ext (by omega)
  simpa using hle

/-! ### One level -/

section Level
variable {n : ℕ} [NeZero n]

/-- The state between levels: `target` is the vector of means of the test functions (first the constant one), `good` the
rows that may carry weight. -/
structure TreeInv (pf : Fin n → Fin m → K) (target : Fin (m + 1) → K) (good : Fin n → Prop) (S : ℕ)
    (st : Data (rows * count) ℤ K) : Prop where
  nonneg : ∀ p, 0 ≤ st.weights p
  sum : ∀ l, ∑ p, st.weights p * augment (pf (gatherIdx n (st.data p))) l = target l
  inj : ∀ p p', st.weights p ≠ 0 → st.weights p' ≠ 0 → st.data p = st.data p' → p = p'
  valid : ∀ p, st.weights p ≠ 0 → ∃ i : Fin n, st.data p = ((i : ℕ) : ℤ) ∧ good i
  card : (Finset.univ.filter (fun p => st.weights p ≠ 0)).card ≤ S

/-- The centroid dataset of a state. -/
def centroidData (pf : Fin n → Fin m → K) (st : Data (rows * count) ℤ K) : Data count (Fin m → K) K :=
  ⟨centroidNode pf st.weights st.data, centroidWeight st.weights⟩

theorem centroidWeight_nonneg {st : Data (rows * count) ℤ K} (h : ∀ p, 0 ≤ st.weights p) (q : Fin count) :
    0 ≤ centroidWeight st.weights q := Finset.sum_nonneg fun _ _ => h _

theorem centroid_weighted (pf : Fin n → Fin m → K) {st : Data (rows * count) ℤ K} (h : ∀ p, 0 ≤ st.weights p) (q : Fin count)
    (l : Fin (m + 1)) : centroidWeight st.weights q * augment (centroidNode pf st.weights st.data q) l
      = ∑ j, st.weights (centroidIdx st.weights q j) * augment (pf (gatherIdx n (st.data (centroidIdx st.weights q j)))) l := by
  refine Fin.cases ?_ (fun l => ?_) l
  · simp only [augment, Fin.cons_zero, mul_one]
    rfl
  · simp only [augment, Fin.cons_succ]
    unfold centroidNode
    by_cases hz : centroidWeight st.weights q = 0
    · rw [hz, zero_mul]
      symm
      have := (Finset.sum_eq_zero_iff_of_nonneg (fun j _ => h _)).1 hz
      exact Finset.sum_eq_zero fun j hj => by rw [this j hj, zero_mul]
    · rw [mul_div_cancel₀ _ hz]

/-- What the recombination of the centroids returns. -/
theorem centroidCoreset_spec (big : K) (null : NullResolver K) (hnull : ∀ n m (nodes : Fin n → Fin m → K),
      NullBasis nodes (null n m nodes).1 (null n m nodes).2) (D : Data count (Fin m → K) K) (hw : ∀ q, 0 ≤ D.weights q)
    (hsum : ∑ q, D.weights q = 1) :
    ∃ (cs : Fin count → Fin count) (cw : Fin count → K) (out : Fin count → K) (pos : Fin count → Fin count),
      centroidCoreset big null D = some ⟨fun q => ((cs q : ℕ) : ℤ), cw⟩ ∧
      (∀ q, 0 < D.weights (cs q)) ∧ (∀ q, 0 ≤ cw q) ∧
      (∀ l, ∑ q, cw q * augment (D.data (cs q)) l = ∑ q, D.weights q * augment (D.data q) l) ∧
      (∀ q q', cw q ≠ 0 → cw q' ≠ 0 → cs q = cs q' → q = q') ∧
      (Finset.univ.filter (fun q => cw q ≠ 0)).card ≤ m + 1 ∧
      IndepOn (fun q => augment (D.data (cs q))) (fun q => cw q ≠ 0) := by
  have hpos : ∃ q, 0 < D.weights q := by
    by_contra hc
    push Not at hc
    have : ∑ q, D.weights q = 0 := Finset.sum_eq_zero fun q _ => le_antisymm (hc q) (hw q)
    rw [this] at hsum
    exact zero_ne_one hsum
  obtain ⟨out, h1, h2, h3, -, h5⟩ := caraWeights_spec big null (id : (Fin m → K) → Fin m → K) D hw hpos (hnull _ _ _)
  obtain ⟨e, -, hnn, hp, hiff⟩ := normalized_pos big D hw hpos
  set w := (D.normalizePZ big).weights with hwdef
  have hlen : (flatNonzero out).length ≤ count := by
    rw [length_flatNonzero]
    have := Finset.card_le_univ (Finset.univ.filter (fun t => out t ≠ 0))
    simpa using this
  -- the supported positions of the sized array are the non-zero entries
  have hlt : ∀ q : Fin count, out (flatNonzeroSized out count q) ≠ 0 → (q : ℕ) < (flatNonzero out).length := by
    intro q hq
    by_contra hc
    rw [sized_of_ge q (not_lt.1 hc)] at hq
    exact hq (fill_zero h2 (by have := q.2; omega))
  have hpi : ∀ q q', out (flatNonzeroSized out count q) ≠ 0 → out (flatNonzeroSized out count q') ≠ 0 →
      flatNonzeroSized out count q = flatNonzeroSized out count q' → q = q' := by
    intro q q' hq hq' heq
    rw [sized_of_lt q (hlt q hq), sized_of_lt q' (hlt q' hq')] at heq
    have := (nodup_flatNonzero out).get_inj_iff.1 heq
    exact Fin.ext (by simpa using this)
  have hci : ∀ q q', out (flatNonzeroSized out count q) ≠ 0 → out (flatNonzeroSized out count q') ≠ 0 →
      colinIdx w (flatNonzeroSized out count q) = colinIdx w (flatNonzeroSized out count q') → q = q' := by
    intro q q' hq hq' heq
    exact hpi q q' hq hq' (indepOn_inj (nodes := fun i => augment (D.data i)) (f := colinIdx w) h5 hq hq' heq)
  refine ⟨fun q => colinIdx w (flatNonzeroSized out count q), fun q => out (flatNonzeroSized out count q), out,
    flatNonzeroSized out count, ?_, fun q => (hiff _).1 (colinIdx_pos hp _), fun q => h2 _, fun l => ?_, hci, ?_, ?_⟩
  · unfold centroidCoreset
    rw [h1]
    rfl
  · have := sum_sized h2 hlen le_rfl (fun t => augment (D.data (colinIdx w t)) l)
    rw [this]
    have h6 := h3 l
    simp only [caraNodes, id, hsum, div_one] at h6
    exact h6
  · refine le_trans ?_ (indepOn_card_le h5)
    refine Finset.card_le_card_of_injOn (fun q => flatNonzeroSized out count q) ?_ ?_
    · intro q hq; simpa using hq
    · intro a ha b hb hab
      exact hpi a b (by simpa using ha) (by simpa using hb) hab
  · -- independence of the selected centroids
    intro z hz hzn q
    have key := h5 (fun t => ∑ q, if flatNonzeroSized out count q = t then z q else 0) (fun t ht => ?_) (fun l => ?_)
    · by_cases hq : out (flatNonzeroSized out count q) ≠ 0
      · have := key (flatNonzeroSized out count q)

        rw [Finset.sum_eq_single q] at this
        · simpa using this
        · intro b _ hb
          split_ifs with hbq
          · exact absurd (hpi b q (by rw [hbq]; exact hq) hq hbq) hb
          · rfl
        · intro hk; exact absurd (Finset.mem_univ _) hk
      · exact hz q hq
    · refine Finset.sum_eq_zero fun q _ => ?_
      split_ifs with hqt
      · exact hz q (by subst hqt; exact ht)
      · rfl
    · refine Eq.trans ?_ (hzn l)
      simp only [Finset.sum_mul]
      rw [Finset.sum_comm]
      refine Finset.sum_congr rfl fun q _ => ?_
      rw [Finset.sum_eq_single (flatNonzeroSized out count q)]
      · rw [if_pos rfl]; rfl
      · intro b _ hb; rw [if_neg (fun hh => hb hh.symm), zero_mul]
      · intro hk; exact absurd (Finset.mem_univ _) hk

/-- One level. -/
theorem treeStep_spec (big : K) (null : NullResolver K) (hnull : ∀ n m (nodes : Fin n → Fin m → K),
      NullBasis nodes (null n m nodes).1 (null n m nodes).2) (pf : Fin n → Fin m → K) {target : Fin (m + 1) → K}
    (ht : target 0 = 1) {good : Fin n → Prop} {R : ℕ} {st : Data (rows * count) ℤ K}
    (h : TreeInv pf target good (count * R) st) :
    ∃ st', treeStep big null pf st = some st' ∧ TreeInv pf target good ((m + 1) * R) st' ∧
      (R = 1 → IndepOn (fun p => augment (pf (gatherIdx n (st'.data p)))) (fun p => st'.weights p ≠ 0)) := by
  have hsum : ∑ q, (centroidData pf st).weights q = 1 := by
    have h1 := h.sum 0
    simp only [augment, Fin.cons_zero, mul_one] at h1
    rw [← ht, ← h1]
    exact sum_centroidIdx st.weights st.weights
  obtain ⟨cs, cw, -, -, h1, h2, h3, h4, h5, h6, h7⟩ := centroidCoreset_spec big null hnull (centroidData pf st)
    (centroidWeight_nonneg h.nonneg) hsum
  have hst : treeStep big null pf st = some
      { data := fun p => st.data (centroidIdx st.weights (cs (finProdFinEquiv.symm p).2) (finProdFinEquiv.symm p).1)
        weights := fun p => st.weights (centroidIdx st.weights (cs (finProdFinEquiv.symm p).2) (finProdFinEquiv.symm p).1) *
          (cw (finProdFinEquiv.symm p).2 / centroidWeight st.weights (cs (finProdFinEquiv.symm p).2)) } := by
    unfold treeStep
    rw [show (⟨centroidNode pf st.weights st.data, centroidWeight st.weights⟩ : Data count (Fin m → K) K) = centroidData pf st from rfl,
      h1]
    simp only [Option.map_some, gatherIdx_coe]
  have hpos : ∀ q, 0 < centroidWeight st.weights (cs q) := h2
  have hne : ∀ (j : Fin rows) (q : Fin count), st.weights (centroidIdx st.weights (cs q) j) * (cw q / centroidWeight st.weights (cs q)) ≠ 0
      ↔ st.weights (centroidIdx st.weights (cs q) j) ≠ 0 ∧ cw q ≠ 0 := by
    intro j q
    rw [mul_ne_zero_iff, div_ne_zero_iff]
    exact ⟨fun hh => ⟨hh.1, hh.2.1⟩, fun hh => ⟨hh.1, hh.2, (hpos q).ne'⟩⟩
  refine ⟨_, hst, ⟨?_, ?_, ?_, ?_, ?_⟩, ?_⟩
  · intro p
    exact mul_nonneg (h.nonneg _) (div_nonneg (h3 _) (hpos _).le)
  · intro l
    refine (sum_fOrder (fun j q => st.weights (centroidIdx st.weights (cs q) j) * (cw q / centroidWeight st.weights (cs q)) *
      augment (pf (gatherIdx n (st.data (centroidIdx st.weights (cs q) j)))) l)).trans ?_
    have e : ∀ q, ∑ j, st.weights (centroidIdx st.weights (cs q) j) * (cw q / centroidWeight st.weights (cs q)) *
        augment (pf (gatherIdx n (st.data (centroidIdx st.weights (cs q) j)))) l
        = cw q * augment ((centroidData pf st).data (cs q)) l := by
      intro q
      have h8 := centroid_weighted pf h.nonneg (cs q) l
      have h9 := (hpos q).ne'
      calc _ = cw q / centroidWeight st.weights (cs q) * ∑ j, st.weights (centroidIdx st.weights (cs q) j) *
            augment (pf (gatherIdx n (st.data (centroidIdx st.weights (cs q) j)))) l := by
            rw [Finset.mul_sum]; exact Finset.sum_congr rfl fun j _ => by ring
        _ = cw q / centroidWeight st.weights (cs q) * (centroidWeight st.weights (cs q) * augment (centroidNode pf st.weights st.data (cs q)) l) := by
            rw [h8]
        _ = _ := by rw [← mul_assoc, div_mul_cancel₀ _ h9]; rfl
    simp only [e]
    rw [h4 l, ← h.sum l, ← sum_centroidIdx st.weights]
    exact Finset.sum_congr rfl fun q _ => centroid_weighted pf h.nonneg q l
  · intro p p' hp hp' hpp
    obtain ⟨ha, hb⟩ := (hne _ _).1 hp
    obtain ⟨ha', hb'⟩ := (hne _ _).1 hp'
    obtain ⟨hq, hj⟩ := centroidIdx_inj (h.inj _ _ ha ha' hpp)
    have hq' := h5 _ _ hb hb' hq
    exact finProdFinEquiv.symm.injective (Prod.ext hj hq')
  · intro p hp
    exact h.valid _ ((hne _ _).1 hp).1
  · -- count the supported entries cluster by cluster
    have hsub : (Finset.univ.filter (fun p : Fin (rows * count) =>
        st.weights (centroidIdx st.weights (cs (finProdFinEquiv.symm p).2) (finProdFinEquiv.symm p).1) *
          (cw (finProdFinEquiv.symm p).2 / centroidWeight st.weights (cs (finProdFinEquiv.symm p).2)) ≠ 0)).card
        ≤ ((Finset.univ.filter (fun q => cw q ≠ 0)).sigma
          (fun q => Finset.univ.filter (fun j => st.weights (centroidIdx st.weights (cs q) j) ≠ 0))).card := by
      refine Finset.card_le_card_of_injOn (fun p => ⟨(finProdFinEquiv.symm p).2, (finProdFinEquiv.symm p).1⟩) ?_ ?_
      · intro p hp
        have := (hne _ _).1 (Finset.mem_filter.1 hp).2
        simp only [Finset.coe_sigma, Set.mem_sigma_iff, Finset.coe_filter, Finset.mem_univ, true_and, Set.mem_setOf_eq]
        exact ⟨this.2, this.1⟩
      · intro a _ b _ hab
        simp only [Sigma.mk.injEq, heq_eq_eq] at hab
        exact finProdFinEquiv.symm.injective (Prod.ext hab.2 hab.1)
    refine hsub.trans ?_
    rw [Finset.card_sigma]
    calc ∑ q ∈ Finset.univ.filter (fun q => cw q ≠ 0), (Finset.univ.filter (fun j => st.weights (centroidIdx st.weights (cs q) j) ≠ 0)).card
        ≤ ∑ q ∈ Finset.univ.filter (fun q => cw q ≠ 0), R :=
          Finset.sum_le_sum fun q _ => cluster_balanced h.nonneg h.card (cs q)
      _ = (Finset.univ.filter (fun q => cw q ≠ 0)).card * R := by rw [Finset.sum_const, smul_eq_mul]
      _ ≤ (m + 1) * R := Nat.mul_le_mul_right _ h6
  · -- with at most one supported entry per cluster the selected centroids are the supported nodes
    rintro rfl
    have huniq : ∀ q j j', st.weights (centroidIdx st.weights (cs q) j) ≠ 0 → st.weights (centroidIdx st.weights (cs q) j') ≠ 0 → j = j' := by
      intro q j j' hj hj'
      have := cluster_balanced h.nonneg h.card (cs q)
      exact Finset.card_le_one.1 this j (by simpa using hj) j' (by simpa using hj')
    have hcent : ∀ q j l, st.weights (centroidIdx st.weights (cs q) j) ≠ 0 →
        augment ((centroidData pf st).data (cs q)) l = augment (pf (gatherIdx n (st.data (centroidIdx st.weights (cs q) j)))) l := by
      intro q j l hj
      have h8 := centroid_weighted pf h.nonneg (cs q) l
      have hz : ∀ j', j' ≠ j → st.weights (centroidIdx st.weights (cs q) j') = 0 := by
        intro j' hj'
        by_contra hc
        exact hj' (huniq q j' j hc hj)
      have hw : centroidWeight st.weights (cs q) = st.weights (centroidIdx st.weights (cs q) j) := by
        unfold centroidWeight
        rw [Finset.sum_eq_single j (fun b _ hb => hz b hb) (fun hk => absurd (Finset.mem_univ _) hk)]
      rw [Finset.sum_eq_single j (fun b _ hb => by rw [hz b hb, zero_mul]) (fun hk => absurd (Finset.mem_univ _) hk), hw] at h8
      exact mul_left_cancel₀ hj h8
    intro z hz hzn p
    have key := h7 (fun q => ∑ j, z (fOrder q j)) (fun q hq => ?_) (fun l => ?_)
    · set x := finProdFinEquiv.symm p with hx
      have hpx : p = fOrder x.2 x.1 := by
        rw [hx]; exact (finProdFinEquiv.apply_symm_apply p).symm
      by_cases hp : st.weights (centroidIdx st.weights (cs x.2) x.1) * (cw x.2 / centroidWeight st.weights (cs x.2)) ≠ 0
      · have h8 := key x.2

        rw [Finset.sum_eq_single x.1] at h8
        · rw [hpx]; exact h8
        · intro b _ hb
          apply hz
          simp only [fOrder, Equiv.symm_apply_apply, not_not]
          by_contra hc
          exact hb (huniq x.2 b x.1 ((hne _ _).1 hc).1 ((hne _ _).1 hp).1)
        · intro hk; exact absurd (Finset.mem_univ _) hk
      · exact hz p hp
    · refine Finset.sum_eq_zero fun j _ => hz _ ?_
      simp only [fOrder, Equiv.symm_apply_apply, not_not] at hq ⊢
      rw [hq, zero_div, mul_zero]
    · refine Eq.trans ?_ (hzn l)
      refine Eq.trans ?_ (sum_fOrder (fun j q => z (fOrder q j) * augment (pf (gatherIdx n (st.data (centroidIdx st.weights (cs q) j)))) l)).symm |>.trans ?_
      · refine Finset.sum_congr rfl fun q _ => ?_
        rw [Finset.sum_mul]
        refine Finset.sum_congr rfl fun j _ => ?_
        by_cases hj : st.weights (centroidIdx st.weights (cs q) j) ≠ 0
        · exact congrArg (z (fOrder q j) * ·) (hcent q j l hj)
        · have : z (fOrder q j) = 0 := by
            apply hz
            simp only [fOrder, Equiv.symm_apply_apply, not_not]
            rw [not_not.1 hj, zero_mul]
          rw [this, zero_mul, zero_mul]
      · refine Finset.sum_congr rfl fun p _ => ?_
        congr 2
        exact finProdFinEquiv.apply_symm_apply p

end Level

end Coreax
