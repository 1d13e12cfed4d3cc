import Verif.Props.RecombinationError
import Verif.Props.TreeRecombination

/-!
# C69: what the cut-off for singular values does to the result of tree recombination

Every level of the tree recombines centroids and may lose accuracy; the errors add up.
-/

set_option linter.unusedSectionVars false

namespace Coreax

open Spec

variable {K : Type*} [Field K] [LinearOrder K] [IsStrictOrderedRing K] {n m : ℕ} [NeZero n] {rows count : ℕ} [NeZero rows] [NeZero count]

/-- What the recombination of the centroids returns with a cut-off. -/
theorem centroidCoreset_cutoff (big : K) (svd : ∀ n m, (Fin n → Fin m → K) → SvdOut n m K) (eps : K) (rcond : Option K) (D : Data count (Fin m → K) K) (hw : ∀ q, 0 ≤ D.weights q)
    (hpos : ∃ q, 0 < D.weights q) (hsvd : IsSvd (caraNodes big id D) (svd count (m + 1) (caraNodes big id D))) {τ : K} (hτ1 : τ < 1)
    (hτ0 : 0 ≤ recombTolerance svd eps rcond (caraNodes big id D)) (hτ : recombTolerance svd eps rcond (caraNodes big id D) ≤ τ) :
    ∃ (cs : Fin count → Fin count) (cw : Fin count → K),
      centroidCoreset big (resolveNullBasis svd eps rcond) D = some ⟨fun q => ((cs q : ℕ) : ℤ), cw⟩ ∧
      (∀ q, 0 < D.weights (cs q)) ∧ (∀ q, 0 ≤ cw q) ∧
      (∀ l, |∑ q, cw q * augment (D.data (cs q)) l - (∑ q, D.weights q * augment (D.data q) l) / ∑ q, D.weights q| ≤ 2 * τ / (1 - τ)) ∧
      (1 - τ) / (1 + τ) ≤ ∑ q, cw q ∧
      (∀ q q', cw q ≠ 0 → cw q' ≠ 0 → cs q = cs q' → q = q') ∧
      (Finset.univ.filter (fun q => cw q ≠ 0)).card ≤ m + 1 := by
  obtain ⟨out, h1, h2, h3, h4, hinj⟩ := caraWeights_cutoff big svd eps rcond (id : (Fin m → K) → Fin m → K) D hw hpos hsvd hτ0 (lt_of_le_of_lt hτ hτ1)
  obtain ⟨e, hs, hnn, hp, hiff⟩ := normalized_pos big D hw hpos
  set w := (D.normalizePZ big).weights with hwdef
  set σ := recombTolerance svd eps rcond (caraNodes big id D) with hσ
  have hτ00 : 0 ≤ τ := hτ0.trans hτ
  have hlen : (flatNonzero out).length ≤ count := by
    rw [length_flatNonzero]
    have := Finset.card_le_univ (Finset.univ.filter (fun t => out t ≠ 0))
    simpa using this
  have hlt : ∀ q : Fin count, out (flatNonzeroSized out count q) ≠ 0 → (q : ℕ) < (flatNonzero out).length := by
    intro q hq
    by_contra hc
    rw [sized_of_ge q (not_lt.1 hc)] at hq
    exact hq (fill_zero h2 (by have := q.2; omega))
  have hpi : ∀ q q', out (flatNonzeroSized out count q) ≠ 0 → out (flatNonzeroSized out count q') ≠ 0 →
      flatNonzeroSized out count q = flatNonzeroSized out count q' → q = q' := by
    intro q q' hq hq' heq
    rw [sized_of_lt q (hlt q hq), sized_of_lt q' (hlt q' hq')] at heq
    have := (nodup_flatNonzero out).get_inj_iff.1 heq
    exact Fin.ext (by simpa using this)
  have hM0 : 0 ≤ ∑ t, out t := Finset.sum_nonneg fun t _ => h2 t
  have hl : ∀ l, |∑ t, out t * caraNodes big id D t l - ∑ t, D.weights t / (∑ j, D.weights j) * augment (D.data t) l| ≤ τ * (∑ t, out t + 1) := by
    intro l
    refine abs_le_of_sq_le_sq ?_ (by positivity)
    refine le_trans ?_ (h3.trans ?_)
    · exact Finset.single_le_sum (f := fun l => (∑ t, out t * caraNodes big id D t l - ∑ t, D.weights t / (∑ j, D.weights j) * augment (D.data t) l) ^ 2)
        (fun _ _ => sq_nonneg _) (Finset.mem_univ l)
    · exact pow_le_pow_left₀ (by positivity) (mul_le_mul_of_nonneg_right hτ (by positivity)) 2
  have hmass := hl 0
  simp only [caraNodes, augment, Fin.cons_zero, mul_one] at hmass
  rw [← Finset.sum_div, div_self hs.ne', abs_le] at hmass
  have hM2 : (∑ t, out t) * (1 - τ) ≤ 1 + τ := by linarith [hmass.2]
  have hM1 : 1 - τ ≤ (∑ t, out t) * (1 + τ) := by linarith [hmass.1]
  refine ⟨fun q => colinIdx w (flatNonzeroSized out count q), fun q => out (flatNonzeroSized out count q), ?_, fun q => (hiff _).1 (colinIdx_pos hp _), fun q => h2 _, fun l => ?_, ?_, ?_, ?_⟩
  · unfold centroidCoreset
    rw [h1]
    rfl
  · have h5 := sum_sized h2 hlen le_rfl (fun t => augment (D.data (colinIdx w t)) l)
    rw [h5]
    have h8 : (∑ t, D.weights t * augment (D.data t) l) / ∑ t, D.weights t = ∑ t, D.weights t / (∑ j, D.weights j) * augment (D.data t) l := by
      rw [Finset.sum_div]
      exact Finset.sum_congr rfl fun t _ => by ring
    rw [h8]
    refine (hl l).trans ?_
    rw [le_div_iff₀ (by linarith)]
    nlinarith
  · have h5 := sum_sized h2 hlen le_rfl (fun _ => 1)
    simp only [mul_one] at h5
    rw [h5, div_le_iff₀ (by linarith)]
    exact hM1
  · intro q q' hq hq' hqq
    exact hpi q q' hq hq' (hinj _ _ hq hq' hqq)
  · refine le_trans ?_ (h4.trans ?_)
    · refine Finset.card_le_card_of_injOn (fun q => flatNonzeroSized out count q) ?_ ?_
      · intro q hq; simpa using hq
      · intro a ha b hb hab
        exact hpi a b (by simpa using ha) (by simpa using hb) hab
    · refine (Finset.card_le_univ _).trans ?_
      rw [Fintype.card_fin]
      exact min_le_right _ _

/-- One level with a cut-off. -/
theorem treeStep_cutoff (big : K) (svd : ∀ n m, (Fin n → Fin m → K) → SvdOut n m K) (eps : K) (rcond : Option K) (pf : Fin n → Fin m → K) {target : Fin (m + 1) → K}
    (ht : 0 < target 0) {good : Fin n → Prop} {R : ℕ} {st : Data (rows * count) ℤ K} (h : TreeInv pf target good (count * R) st)
    (hsvd : IsSvd (caraNodes big id (centroidData pf st)) (svd count (m + 1) (caraNodes big id (centroidData pf st)))) {τ : K} (hτ1 : τ < 1)
    (hτ0 : 0 ≤ recombTolerance svd eps rcond (caraNodes big id (centroidData pf st))) (hτ : recombTolerance svd eps rcond (caraNodes big id (centroidData pf st)) ≤ τ) :
    ∃ st' target', treeStep big (resolveNullBasis svd eps rcond) pf st = some st' ∧ TreeInv pf target' good ((m + 1) * R) st' ∧ 0 < target' 0 ∧
      ∀ l, |target' l - target l / target 0| ≤ 2 * τ / (1 - τ) := by
  have hsumw : ∑ q, (centroidData pf st).weights q = target 0 := by
    have h1 := h.sum 0
    simp only [augment, Fin.cons_zero, mul_one] at h1
    rw [← h1]
    exact sum_centroidIdx st.weights st.weights
  have hsuml : ∀ l, ∑ q, (centroidData pf st).weights q * augment ((centroidData pf st).data q) l = target l := by
    intro l
    rw [← h.sum l, ← sum_centroidIdx st.weights]
    exact Finset.sum_congr rfl fun q _ => centroid_weighted pf h.nonneg q l
  have hpos0 : ∃ q, 0 < (centroidData pf st).weights q := by
    by_contra hc
    push Not at hc
    have := Finset.sum_nonpos fun q (_ : q ∈ Finset.univ) => hc q
    rw [hsumw] at this
    exact absurd ht (not_lt.2 this)
  obtain ⟨cs, cw, h1, h2, h3, h4, hM, h5, h6⟩ := centroidCoreset_cutoff big svd eps rcond (centroidData pf st) (centroidWeight_nonneg h.nonneg) hpos0 hsvd hτ1 hτ0 hτ
  have hτ00 : 0 ≤ τ := hτ0.trans hτ
  have hst : treeStep big (resolveNullBasis svd eps rcond) pf st = some
      { data := fun p => st.data (centroidIdx st.weights (cs (finProdFinEquiv.symm p).2) (finProdFinEquiv.symm p).1)
        weights := fun p => st.weights (centroidIdx st.weights (cs (finProdFinEquiv.symm p).2) (finProdFinEquiv.symm p).1) *
          (cw (finProdFinEquiv.symm p).2 / centroidWeight st.weights (cs (finProdFinEquiv.symm p).2)) } := by
    unfold treeStep
    rw [show (⟨centroidNode pf st.weights st.data, centroidWeight st.weights⟩ : Data count (Fin m → K) K) = centroidData pf st from rfl,
      h1]
    simp only [Option.map_some, gatherIdx_coe]
  have hpos : ∀ q, 0 < centroidWeight st.weights (cs q) := h2
  have hne : ∀ (j : Fin rows) (q : Fin count), st.weights (centroidIdx st.weights (cs q) j) * (cw q / centroidWeight st.weights (cs q)) ≠ 0
      ↔ st.weights (centroidIdx st.weights (cs q) j) ≠ 0 ∧ cw q ≠ 0 := by
    intro j q
    rw [mul_ne_zero_iff, div_ne_zero_iff]
    exact ⟨fun hh => ⟨hh.1, hh.2.1⟩, fun hh => ⟨hh.1, hh.2, (hpos q).ne'⟩⟩
  refine ⟨_, fun l => ∑ q, cw q * augment ((centroidData pf st).data (cs q)) l, hst, ⟨?_, ?_, ?_, ?_, ?_⟩, ?_, ?_⟩
  · intro p
    exact mul_nonneg (h.nonneg _) (div_nonneg (h3 _) (hpos _).le)
  · intro l
    refine (sum_fOrder (fun j q => st.weights (centroidIdx st.weights (cs q) j) * (cw q / centroidWeight st.weights (cs q)) *
      augment (pf (gatherIdx n (st.data (centroidIdx st.weights (cs q) j)))) l)).trans ?_
    have e : ∀ q, ∑ j, st.weights (centroidIdx st.weights (cs q) j) * (cw q / centroidWeight st.weights (cs q)) *
        augment (pf (gatherIdx n (st.data (centroidIdx st.weights (cs q) j)))) l
        = cw q * augment ((centroidData pf st).data (cs q)) l := by
      intro q
      have h8 := centroid_weighted pf h.nonneg (cs q) l
      have h9 := (hpos q).ne'
      calc _ = cw q / centroidWeight st.weights (cs q) * ∑ j, st.weights (centroidIdx st.weights (cs q) j) *
            augment (pf (gatherIdx n (st.data (centroidIdx st.weights (cs q) j)))) l := by
            rw [Finset.mul_sum]; exact Finset.sum_congr rfl fun j _ => by ring
        _ = cw q / centroidWeight st.weights (cs q) * (centroidWeight st.weights (cs q) * augment (centroidNode pf st.weights st.data (cs q)) l) := by
            rw [h8]
        _ = _ := by rw [← mul_assoc, div_mul_cancel₀ _ h9]; rfl
    simp only [e]
  · intro p p' hp hp' hpp
    obtain ⟨ha, hb⟩ := (hne _ _).1 hp
    obtain ⟨ha', hb'⟩ := (hne _ _).1 hp'
    obtain ⟨hq, hj⟩ := centroidIdx_inj (h.inj _ _ ha ha' hpp)
    have hq' := h5 _ _ hb hb' hq
    exact finProdFinEquiv.symm.injective (Prod.ext hj hq')
  · intro p hp
    exact h.valid _ ((hne _ _).1 hp).1
  · have hsub : (Finset.univ.filter (fun p : Fin (rows * count) =>
        st.weights (centroidIdx st.weights (cs (finProdFinEquiv.symm p).2) (finProdFinEquiv.symm p).1) *
          (cw (finProdFinEquiv.symm p).2 / centroidWeight st.weights (cs (finProdFinEquiv.symm p).2)) ≠ 0)).card
        ≤ ((Finset.univ.filter (fun q => cw q ≠ 0)).sigma
          (fun q => Finset.univ.filter (fun j => st.weights (centroidIdx st.weights (cs q) j) ≠ 0))).card := by
      refine Finset.card_le_card_of_injOn (fun p => ⟨(finProdFinEquiv.symm p).2, (finProdFinEquiv.symm p).1⟩) ?_ ?_
      · intro p hp
        have := (hne _ _).1 (Finset.mem_filter.1 hp).2
        simp only [Finset.coe_sigma, Set.mem_sigma_iff, Finset.coe_filter, Finset.mem_univ, true_and, Set.mem_setOf_eq]
        exact ⟨this.2, this.1⟩
      · intro a _ b _ hab
        simp only [Sigma.mk.injEq, heq_eq_eq] at hab
        exact finProdFinEquiv.symm.injective (Prod.ext hab.2 hab.1)
    refine hsub.trans ?_
    rw [Finset.card_sigma]
    calc ∑ q ∈ Finset.univ.filter (fun q => cw q ≠ 0), (Finset.univ.filter (fun j => st.weights (centroidIdx st.weights (cs q) j) ≠ 0)).card
        ≤ ∑ q ∈ Finset.univ.filter (fun q => cw q ≠ 0), R :=
          Finset.sum_le_sum fun q _ => cluster_balanced h.nonneg h.card (cs q)
      _ = (Finset.univ.filter (fun q => cw q ≠ 0)).card * R := by rw [Finset.sum_const, smul_eq_mul]
      _ ≤ (m + 1) * R := Nat.mul_le_mul_right _ h6
  · simp only [augment, Fin.cons_zero, mul_one]
    refine lt_of_lt_of_le ?_ hM
    apply div_pos <;> linarith
  · intro l
    have := h4 l
    rwa [hsuml, hsumw] at this

/-- Bounded test functions have bounded sums and bounded centroids. -/
theorem TreeInv.bound {pf : Fin n → Fin m → K} {target : Fin (m + 1) → K} {good : Fin n → Prop} {S : ℕ} {st : Data (rows * count) ℤ K} (h : TreeInv pf target good S st) {B : K}
    (hB : ∀ i, good i → ∀ l, |pf i l| ≤ B) : (∀ l : Fin m, |target l.succ| ≤ B * target 0) ∧
      ∀ q, 0 < (centroidData pf st).weights q → ∀ l, |(centroidData pf st).data q l| ≤ B := by
  have hterm : ∀ p (l : Fin m), |st.weights p * pf (gatherIdx n (st.data p)) l| ≤ B * st.weights p := by
    intro p l
    by_cases hp : st.weights p = 0
    · simp [hp]
    · obtain ⟨i, hi, hg⟩ := h.valid p hp
      rw [hi, gatherIdx_coe, abs_mul, abs_of_nonneg (h.nonneg p), mul_comm]
      exact mul_le_mul_of_nonneg_right (hB i hg l) (h.nonneg p)
  constructor
  · intro l
    have h1 := h.sum l.succ
    have h0 := h.sum 0
    simp only [augment, Fin.cons_zero, Fin.cons_succ, mul_one] at h0 h1
    rw [← h0, ← h1, Finset.mul_sum]
    exact (Finset.abs_sum_le_sum_abs _ _).trans (Finset.sum_le_sum fun p _ => hterm p l)
  · intro q hq l
    have hq' : 0 < centroidWeight st.weights q := hq
    change |centroidNode pf st.weights st.data q l| ≤ B
    unfold centroidNode
    rw [abs_div, abs_of_pos hq', div_le_iff₀ hq']
    unfold centroidWeight
    rw [Finset.mul_sum]
    exact (Finset.abs_sum_le_sum_abs _ _).trans (Finset.sum_le_sum fun j _ => hterm _ l)

/-- All levels with a cut-off. -/
theorem treeLoop_cutoff_at {X : Type*} (big : K) (svd : ∀ n m, (Fin n → Fin m → K) → SvdOut n m K) (eps : K) (rcond : Option K) (test : X → Fin m → K) (c : ℕ) [NeZero c] (hc : 1 < c) (D : ℕ) (hD : 1 ≤ D) (hle : n ≤ (m + 1) * c ^ D)
    (d : Data n X K) (hw : ∀ t, 0 ≤ d.weights t) (hpos : ∃ t, 0 < d.weights t) {τ B : K} (hτ1 : τ < 1) (hB : ∀ t, 0 < d.weights t → ∀ l, |test (d.data t) l| ≤ B)
    (hlev : ∀ i, i < D → ∀ st : Data (c ^ (D - 1) * (c * (m + 1))) ℤ K,
      treeLoop big (resolveNullBasis svd eps rcond) (fun t => test (d.data t)) i (treeInit _ (d.normalizePZ big).weights) = some st →
      (∀ q, 0 < (centroidData (fun t => test (d.data t)) st).weights q → ∀ l, |(centroidData (fun t => test (d.data t)) st).data q l| ≤ B) →
      (∀ q, 0 ≤ (centroidData (fun t => test (d.data t)) st).weights q) → (∃ q, 0 < (centroidData (fun t => test (d.data t)) st).weights q) →
      IsSvd (caraNodes big id (centroidData (fun t => test (d.data t)) st)) (svd _ (m + 1) (caraNodes big id (centroidData (fun t => test (d.data t)) st))) ∧
      0 ≤ recombTolerance svd eps rcond (caraNodes big id (centroidData (fun t => test (d.data t)) st)) ∧
      recombTolerance svd eps rcond (caraNodes big id (centroidData (fun t => test (d.data t)) st)) ≤ τ) (i : ℕ) (hi : i ≤ D) :
    ∃ st target, treeLoop (rows := c ^ (D - 1)) (count := c * (m + 1)) big (resolveNullBasis svd eps rcond) (fun t => test (d.data t)) i
        (treeInit _ (d.normalizePZ big).weights) = some st ∧
      TreeInv (fun t => test (d.data t)) target (fun r => 0 < d.weights r) ((m + 1) * c ^ (D - i)) st ∧ 0 < target 0 ∧
      (i = 0 → target = targetMeans test d) ∧
      (1 ≤ i → |target 0 - 1| ≤ 2 * τ / (1 - τ) ∧ ∀ l : Fin m, |target l.succ - targetMeans test d l.succ| ≤ (i + (i - 1) * B) * (2 * τ / (1 - τ))) := by
  induction i with
  | zero =>
    refine ⟨_, targetMeans test d, rfl, (treeInit_inv big test d hw hpos ?_).mono hle, ?_, fun _ => rfl, fun h => by omega⟩
    · refine hle.trans (le_of_eq ?_)
      obtain ⟨D', hDe⟩ : ∃ D', D = D' + 1 := ⟨_, (Nat.sub_add_cancel hD).symm⟩
      rw [hDe, Nat.add_sub_cancel, pow_succ]
      ring
    · rw [target_zero test d hw hpos]
      exact one_pos
  | succ i ih =>
    obtain ⟨st, target, h1, h2, h3, h4, h5⟩ := ih (by omega)
    have e : (m + 1) * c ^ (D - i) = c * (m + 1) * c ^ (D - (i + 1)) := by
      rw [show D - i = D - (i + 1) + 1 by omega, pow_succ]
      ring
    rw [e] at h2
    obtain ⟨hb1, hb2⟩ := h2.bound (B := B) fun i hi l => hB i hi l
    have hnn := centroidWeight_nonneg (st := st) h2.nonneg
    have hsumw : ∑ q, (centroidData (fun t => test (d.data t)) st).weights q = target 0 := by
      have h1 := h2.sum 0
      simp only [augment, Fin.cons_zero, mul_one] at h1
      rw [← h1]
      exact sum_centroidIdx st.weights st.weights
    have hpos0 : ∃ q, 0 < (centroidData (fun t => test (d.data t)) st).weights q := by
      by_contra hc
      push Not at hc
      have := Finset.sum_nonpos fun q (_ : q ∈ Finset.univ) => hc q
      rw [hsumw] at this
      exact absurd h3 (not_lt.2 this)
    obtain ⟨hs1, hs2, hs3⟩ := hlev i (by omega) st h1 hb2 hnn hpos0
    obtain ⟨st', target', g1, g2, g3, g4⟩ := treeStep_cutoff big svd eps rcond (fun t => test (d.data t)) h3 h2 hs1 hτ1 hs2 hs3
    refine ⟨st', target', ?_, g2, g3, fun h => by omega, fun _ => ⟨?_, fun l => ?_⟩⟩
    · have : treeLoop (rows := c ^ (D - 1)) (count := c * (m + 1)) big (resolveNullBasis svd eps rcond) (fun t => test (d.data t)) (i + 1)
          (treeInit _ (d.normalizePZ big).weights) =
          (treeLoop (rows := c ^ (D - 1)) (count := c * (m + 1)) big (resolveNullBasis svd eps rcond) (fun t => test (d.data t)) i
          (treeInit _ (d.normalizePZ big).weights)).bind (treeStep big (resolveNullBasis svd eps rcond) (fun t => test (d.data t))) := rfl
      rw [this, h1]
      exact g1
    · have := g4 0
      rwa [div_self h3.ne'] at this
    · have g5 := g4 l.succ
      rcases Nat.eq_zero_or_pos i with rfl | hi1
      · have hT := h4 rfl
        subst hT
        rw [target_zero test d hw hpos, div_one] at g5
        simpa using g5
      · obtain ⟨h6, h7⟩ := h5 hi1
        have hB0 : 0 ≤ B := by
          obtain ⟨t, ht⟩ := hpos
          exact (abs_nonneg _).trans (hB t ht l)
        have g6 : |target l.succ / target 0 - target l.succ| ≤ B * (2 * τ / (1 - τ)) := by
          have : target l.succ / target 0 - target l.succ = target l.succ / target 0 * (1 - target 0) := by
            field_simp
          rw [this, abs_mul, abs_sub_comm 1]
          refine mul_le_mul ?_ h6 (abs_nonneg _) hB0
          rw [abs_div, abs_of_pos h3, div_le_iff₀ h3]
          exact hb1 l
        have g7 := abs_sub_le (target' l.succ) (target l.succ / target 0) (targetMeans test d l.succ)
        have g8 := abs_sub_le (target l.succ / target 0) (target l.succ) (targetMeans test d l.succ)
        have g9 := h7 l
        push_cast
        have : ((i : K) + 1 + ((i : K) + 1 - 1) * B) * (2 * τ / (1 - τ)) = 2 * τ / (1 - τ) + (B * (2 * τ / (1 - τ)) + ((i : K) + ((i : K) - 1) * B) * (2 * τ / (1 - τ))) := by ring
        rw [this]
        linarith

/-- C69 for the tree solver: with test functions bounded by `B` on the rows of positive weight and a cut-off `τ = tol * S < 1` (where `c (m + 1) (1 + m B²) ≤ S²` and `tol` is the relative tolerance of
`rcond`), all `D` levels succeed and in every output mode the coreset has non-negative weights on at most `m + 1` distinct rows of positive weight, its mass differs from one by at most
`δ = 2 τ / (1 - τ)` and the sum of every test function from the mean over the data by at most `(D + (D - 1) B) δ`. -/
theorem C69_tree_error_at {X : Type*} (big : K) (svd : ∀ n m, (Fin n → Fin m → K) → SvdOut n m K) (eps : K) (heps : 0 ≤ eps) (rcond : Option K) (test : X → Fin m → K) (mode : RecombMode) (c : ℕ) [NeZero c]
    (hc : 1 < c) (D : ℕ) (hD : 1 ≤ D) (hle : n ≤ (m + 1) * c ^ D) (d : Data n X K) (hw : ∀ t, 0 ≤ d.weights t) (hpos : ∃ t, 0 < d.weights t) (B S : K) (hS : 0 ≤ S) (hB : ∀ t, 0 < d.weights t → ∀ l, |test (d.data t) l| ≤ B)
    (hBS : (c * (m + 1) : ℕ) * (1 + m * B ^ 2) ≤ S ^ 2) (tol : K) (h1 : rcond = none → tol = eps * max ((c * (m + 1) : ℕ) : K) ((m : K) + 1)) (h2 : ∀ r, rcond = some r → r < 0 → tol = eps)
    (h3 : ∀ r, rcond = some r → 0 ≤ r → tol = r) (hτ : tol * S < 1)
    (hsvd : ∀ i, i < D → ∀ st : Data (c ^ (D - 1) * (c * (m + 1))) ℤ K,
      treeLoop big (resolveNullBasis svd eps rcond) (fun t => test (d.data t)) i (treeInit _ (d.normalizePZ big).weights) = some st →
      IsSvd (caraNodes big id (centroidData (fun t => test (d.data t)) st)) (svd _ (m + 1) (caraNodes big id (centroidData (fun t => test (d.data t)) st)))) :
    ∃ (k : ℕ) (o : Data k ℤ K), treeReduceAt big (resolveNullBasis svd eps rcond) test mode c D d = some ⟨k, o⟩ ∧ (∀ t, 0 ≤ o.weights t) ∧ (supportRows o).Nodup ∧ (supportRows o).length ≤ min n (m + 1) ∧
      (∀ r ∈ supportRows o, ∃ i : Fin n, r = ((i : ℕ) : ℤ) ∧ 0 < d.weights i) ∧
      |∑ t, o.weights t - 1| ≤ 2 * (tol * S) / (1 - tol * S) ∧
      ∀ l, |∑ t, o.weights t * test (d.data (gatherIdx n (o.data t))) l - (∑ t, d.weights t * test (d.data t) l) / ∑ t, d.weights t|
        ≤ (D + (D - 1) * B) * (2 * (tol * S) / (1 - tol * S)) := by
  obtain ⟨st, target, g1, g2, g3, -, g5⟩ := treeLoop_cutoff_at big svd eps rcond test c hc D hD hle d hw hpos hτ hB (fun i hi st hst hb hnn hp => ⟨hsvd i hi st hst,
      C69_tolerance big svd eps heps rcond id (centroidData (fun t => test (d.data t)) st) hnn hp (hsvd i hi st hst) B S hS hb hBS tol h1 h2 h3⟩) (D) le_rfl
  obtain ⟨g6, g7⟩ := g5 hD
  have hlen1 : (flatNonzero st.weights).length ≤ m + 1 := by
    rw [length_flatNonzero]
    have := g2.card
    rwa [Nat.sub_self, pow_zero, mul_one] at this
  have hrow : ∀ p, st.weights p ≠ 0 → ((gatherIdx n (st.data p) : ℕ) : ℤ) = st.data p ∧ 0 < d.weights (gatherIdx n (st.data p)) := by
    intro p hp
    obtain ⟨i, hi, hg⟩ := g2.valid p hp
    rw [hi, gatherIdx_coe]
    exact ⟨rfl, hg⟩
  have hlen2 : (flatNonzero st.weights).length ≤ n := by
    rw [length_flatNonzero]
    have : (Finset.univ.filter (fun t => st.weights t ≠ 0)).card ≤ (Finset.univ : Finset (Fin n)).card := by
      refine Finset.card_le_card_of_injOn (fun p => gatherIdx n (st.data p)) (fun _ _ => by simp) ?_
      intro a ha b hb hab
      have ha' : st.weights a ≠ 0 := by simpa using ha
      have hb' : st.weights b ≠ 0 := by simpa using hb
      refine g2.inj a b ha' hb' ?_
      rw [← (hrow a ha').1, ← (hrow b hb').1]
      exact congrArg (fun i : Fin n => ((i : ℕ) : ℤ)) hab
    simpa using this
  have hlen : (flatNonzero st.weights).length ≤ min n (m + 1) := le_min hlen2 hlen1
  have hN : n ≤ c ^ (D - 1) * (c * (m + 1)) := by
    refine hle.trans (le_of_eq ?_)
    obtain ⟨D', hDe⟩ : ∃ D', D = D' + 1 := ⟨_, (Nat.sub_add_cancel hD).symm⟩
    rw [hDe, Nat.add_sub_cancel, pow_succ]
    ring
  have hint := fun g => integral_coresubsetNodes st.weights g2.nonneg st.data hlen hN mode g
  have hrows : supportRows (coresubsetNodes n (m + 1) st.weights st.data mode).2 = (flatNonzero st.weights).map st.data := by
    unfold supportRows
    rw [support_coresubsetNodes st.weights g2.nonneg st.data hlen hN mode, List.map_map]
    rfl
  refine ⟨_, (coresubsetNodes n (m + 1) st.weights st.data mode).2, ?_, ?_, ?_, ?_, ?_, ?_, ?_⟩
  · exact (congrArg (Option.map (fun st => coresubsetNodes n (m + 1) st.weights st.data mode)) g1).trans rfl
  · intro t
    obtain ⟨s, -, hs⟩ := coresubsetNodes_mem st.weights st.data n (m + 1) mode t
    rw [hs]
    exact g2.nonneg s
  · rw [hrows]
    refine List.Nodup.map_on ?_ (nodup_flatNonzero _)
    intro a ha b hb hab
    exact g2.inj a b (mem_flatNonzero.1 ha) (mem_flatNonzero.1 hb) hab
  · rw [hrows, List.length_map]
    exact hlen
  · intro r hr
    rw [hrows, List.mem_map] at hr
    obtain ⟨p, hp, rfl⟩ := hr
    exact g2.valid p (mem_flatNonzero.1 hp)
  · have h6 := hint (fun _ => 1)
    unfold integral at h6
    simp only [mul_one] at h6
    rw [h6]
    have h7 := g2.sum 0
    simp only [augment, Fin.cons_zero, mul_one] at h7
    rw [h7]
    exact g6
  · intro l
    have h6 := hint (fun i => test (d.data (gatherIdx n i)) l)
    unfold integral at h6
    rw [h6]
    have h7 := g2.sum l.succ
    simp only [augment, Fin.cons_succ] at h7
    rw [h7]
    have h8 := g7 l
    simpa only [targetMeans, augment, Fin.cons_succ] using h8

/-- C69 for the tree solver: with test functions bounded by `B` on the rows of positive weight and a cut-off `τ = tol * S < 1` (where `c (m + 1) (1 + m B²) ≤ S²` and `tol` is the relative tolerance of
`rcond`), all `D` levels succeed and in every output mode the coreset has non-negative weights on at most `m + 1` distinct rows of positive weight, its mass differs from one by at most
`δ = 2 τ / (1 - τ)` and the sum of every test function from the mean over the data by at most `(D + (D - 1) B) δ`. -/
theorem C69_tree_error {X : Type*} (big : K) (svd : ∀ n m, (Fin n → Fin m → K) → SvdOut n m K) (eps : K) (heps : 0 ≤ eps) (rcond : Option K) (test : X → Fin m → K) (mode : RecombMode) (c : ℕ) [NeZero c]
    (hc : 1 < c) (d : Data n X K) (hw : ∀ t, 0 ≤ d.weights t) (hpos : ∃ t, 0 < d.weights t) (B S : K) (hS : 0 ≤ S) (hB : ∀ t, 0 < d.weights t → ∀ l, |test (d.data t) l| ≤ B)
    (hBS : (c * (m + 1) : ℕ) * (1 + m * B ^ 2) ≤ S ^ 2) (tol : K) (h1 : rcond = none → tol = eps * max ((c * (m + 1) : ℕ) : K) ((m : K) + 1)) (h2 : ∀ r, rcond = some r → r < 0 → tol = eps)
    (h3 : ∀ r, rcond = some r → 0 ≤ r → tol = r) (hτ : tol * S < 1)
    (hsvd : ∀ i, i < treeDepth n (m + 1) c → ∀ st : Data (c ^ (treeDepth n (m + 1) c - 1) * (c * (m + 1))) ℤ K,
      treeLoop big (resolveNullBasis svd eps rcond) (fun t => test (d.data t)) i (treeInit _ (d.normalizePZ big).weights) = some st →
      IsSvd (caraNodes big id (centroidData (fun t => test (d.data t)) st)) (svd _ (m + 1) (caraNodes big id (centroidData (fun t => test (d.data t)) st)))) :
    ∃ (k : ℕ) (o : Data k ℤ K), treeReduce big (resolveNullBasis svd eps rcond) test mode c d = some ⟨k, o⟩ ∧ (∀ t, 0 ≤ o.weights t) ∧ (supportRows o).Nodup ∧ (supportRows o).length ≤ min n (m + 1) ∧
      (∀ r ∈ supportRows o, ∃ i : Fin n, r = ((i : ℕ) : ℤ) ∧ 0 < d.weights i) ∧
      |∑ t, o.weights t - 1| ≤ 2 * (tol * S) / (1 - tol * S) ∧
      ∀ l, |∑ t, o.weights t * test (d.data (gatherIdx n (o.data t))) l - (∑ t, d.weights t * test (d.data t) l) / ∑ t, d.weights t|
        ≤ (treeDepth n (m + 1) c + (treeDepth n (m + 1) c - 1) * B) * (2 * (tol * S) / (1 - tol * S)) :=
  C69_tree_error_at big svd eps heps rcond test mode c hc _ (treeDepth_pos n (m + 1) c) (le_tree_cells (by omega) hc) d hw hpos B S hS hB hBS tol h1 h2 h3 hτ hsvd

/-- The four rows of `smallRows` fit into one level of a tree with factor 2. -/
example (mode : RecombMode) : ∃ (k : ℕ) (o : Data k ℤ ℚ), treeReduce 1000 (resolveNullBasis smallSvd 0 (some (1 / 50))) (fun x _ => x : ℚ → Fin 1 → ℚ) mode 2 smallRows = some ⟨k, o⟩ ∧
    (supportRows o).length ≤ 2 ∧ |∑ t, o.weights t - 1| ≤ 1 / 10 := by
  obtain ⟨k, o, h1, -, -, h2, -, h3, -⟩ := C69_tree_error 1000 smallSvd 0 le_rfl (some (1 / 50)) (fun x _ => x : ℚ → Fin 1 → ℚ) mode 2 (by norm_num) smallRows (by decide +kernel) ⟨0, by decide +kernel⟩
    (1 / 50) (201 / 100) (by norm_num) (by decide +kernel) (by norm_num) (1 / 50) (by simp) (fun r hr hr0 => by cases hr; norm_num at hr0) (fun r hr _ => by cases hr; rfl) (by norm_num) (by
      intro i hi st hst
      have hi0 : i = 0 := by
        have : treeDepth 4 (1 + 1) 2 = 1 := by decide +kernel
        omega
      subst hi0
      have e : st = treeInit _ (smallRows.normalizePZ 1000).weights := (Option.some.inj hst).symm
      subst e
      refine ⟨?_, ?_, ?_, ?_, ?_⟩ <;> decide +kernel)
  refine ⟨k, o, h1, h2.trans (by decide), h3.trans (by norm_num)⟩

end Coreax
