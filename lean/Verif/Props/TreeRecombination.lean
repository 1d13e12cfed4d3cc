import Verif.Lemmas.TreeRecombination

/-!
# Properties of tree recombination

C24 (mass and means), C25 (support), C26 (modes), C27 (progress of the levels, the tree parameters).
-/

set_option linter.unusedSectionVars false

namespace Coreax

open Spec

variable {K : Type*} [Field K] [LinearOrder K] [IsStrictOrderedRing K]

/-! ### The tree parameters -/

theorem treeDepth_pos (n m c : ℕ) : 1 ≤ treeDepth n m c := le_max_left _ _

/-- The padded tree holds all nodes. -/
theorem le_tree_cells {n m c : ℕ} (hm : 0 < m) (hc : 1 < c) : n ≤ m * c ^ treeDepth n m c := by
  have h1 : (n + m - 1) / m ≤ c ^ Nat.clog c ((n + m - 1) / m) := Nat.le_pow_clog hc _
  have h2 : c ^ Nat.clog c ((n + m - 1) / m) ≤ c ^ treeDepth n m c := Nat.pow_le_pow_right (by omega) (le_max_right _ _)
  have h3 : n ≤ m * ((n + m - 1) / m) := by
    have := Nat.div_add_mod (n + m - 1) m
    have := Nat.mod_lt (n + m - 1) hm
    omega
  exact h3.trans (Nat.mul_le_mul_left _ (h1.trans h2))

/-- C27: the tree is defined exactly for reduction factors of at least two. Then the padded number of nodes is the number
of clusters times a power of the factor, the padding is not negative, there is at least one level, and the depth is the
least one for which the nodes fit: one level fewer (if there is more than one) would leave nodes over. -/
theorem C27_prepare (n m : ℕ) (hm : 0 < m) (c : ℤ) :
    (∀ p count depth, prepareTree n m c = .ok (p, count, depth) → 2 ≤ c ∧ count = c.toNat * m ∧ 1 ≤ depth ∧
      n + p = count * c.toNat ^ (depth - 1) ∧ (1 < depth → m * c.toNat ^ (depth - 1) < n)) ∧
    (2 ≤ c → ∃ o, prepareTree n m c = .ok o) ∧ (c = 1 → prepareTree n m c = .error .zeroDivisionError) ∧
    (c ≤ 0 → prepareTree n m c = .error .valueError) := by
  refine ⟨?_, ?_, ?_, ?_⟩
  · intro p count depth h
    unfold prepareTree at h
    split_ifs at h with h1 h2
    simp only [Except.ok.injEq, Prod.mk.injEq] at h
    obtain ⟨hp, hcount, hd⟩ := h
    have hc : 1 < c.toNat := by omega
    have hle := le_tree_cells (n := n) hm hc
    have hpos := treeDepth_pos n m c.toNat
    refine ⟨by omega, hcount.symm, hd ▸ hpos, ?_, ?_⟩
    · rw [← hp, ← hcount, ← hd]
      have e : c.toNat ^ treeDepth n m c.toNat = c.toNat * c.toNat ^ (treeDepth n m c.toNat - 1) := by
        rw [← pow_succ']
        congr 1
        omega
      rw [Nat.add_sub_cancel' hle, e]
      ring
    · intro hlt
      have e : treeDepth n m c.toNat = Nat.clog c.toNat ((n + m - 1) / m) := by
        unfold treeDepth at hd ⊢
        omega
      have hx : 1 < (n + m - 1) / m := by
        by_contra hcon
        rw [Nat.clog_of_right_le_one (not_lt.1 hcon)] at e
        omega
      have h3 := Nat.pow_pred_clog_lt_self hc hx
      rw [← e, hd, Nat.pred_eq_sub_one] at h3
      have h4 : m * (c.toNat ^ (depth - 1) + 1) ≤ m * ((n + m - 1) / m) := Nat.mul_le_mul_left _ h3
      have h5 := Nat.mul_div_le (n + m - 1) m
      have h6 : m * (c.toNat ^ (depth - 1) + 1) = m * c.toNat ^ (depth - 1) + m := by ring
      omega
  · intro h
    unfold prepareTree
    rw [if_neg (by omega), if_neg (by omega)]
    exact ⟨_, rfl⟩
  · rintro rfl
    rfl
  · intro h
    unfold prepareTree
    rw [if_pos h]

example : prepareTree 100 3 2 = .ok (92, 6, 6) := by decide +kernel
example : prepareTree 100 3 5 = .ok (275, 15, 3) := by decide +kernel

/-! ### The levels -/

section
variable {n m : ℕ} [NeZero n]

/-- The means of the test functions (first the constant one). -/
def Spec.targetMeans {X : Type*} (test : X → Fin m → K) (d : Data n X K) (l : Fin (m + 1)) : K :=
  (∑ t, d.weights t * augment (test (d.data t)) l) / ∑ t, d.weights t

theorem treeInit_inv {X : Type*} (big : K) (test : X → Fin m → K) (d : Data n X K) (hw : ∀ t, 0 ≤ d.weights t)
    (hpos : ∃ t, 0 < d.weights t) {count rows : ℕ} (hN : n ≤ rows * count) :
    TreeInv (rows := rows) (count := count) (fun t => test (d.data t)) (targetMeans test d) (fun i => 0 < d.weights i) n
      (treeInit (rows * count) (d.normalizePZ big).weights) := by
  obtain ⟨e, hs, hnn, hp, hiff⟩ := normalized_pos big d hw hpos
  set w := (d.normalizePZ big).weights with hwdef
  have hval : ∀ p, (treeInit (rows * count) w).weights p ≠ 0 → ∃ h : (p : ℕ) < n, w ⟨p, h⟩ ≠ 0 := by
    intro p hp
    simp only [treeInit] at hp
    split_ifs at hp with h
    · exact ⟨h, hp⟩
    · exact absurd rfl hp
  refine ⟨?_, ?_, ?_, ?_, ?_⟩
  · intro p
    simp only [treeInit]
    split_ifs
    · exact hnn _
    · exact le_rfl
  · intro l
    have h1 : ∑ p : Fin (rows * count), (treeInit (rows * count) w).weights p *
          augment (test (d.data (gatherIdx n ((treeInit (rows * count) w).data p)))) l
        = ∑ i : Fin n, w i * augment (test (d.data i)) l := by
      symm
      refine Finset.sum_of_injOn (fun i : Fin n => Fin.castLE hN i) ?_ ?_ ?_ ?_
      · intro a _ b _ hab
        exact Fin.castLE_injective hN hab
      · intro a _; simp
      · intro p _ hp
        have : ¬ (p : ℕ) < n := by
          intro hlt
          exact hp ⟨⟨p, hlt⟩, by simp, Fin.ext rfl⟩
        simp [treeInit, this]
      · intro i _
        simp [treeInit]
    rw [h1, targetMeans, Finset.sum_div]
    exact Finset.sum_congr rfl fun i _ => by rw [e]; ring
  · intro p p' _ _ h
    simp only [treeInit] at h
    exact Fin.ext (by exact_mod_cast h)
  · intro p hp
    obtain ⟨h, hne⟩ := hval p hp
    exact ⟨⟨p, h⟩, rfl, (hiff _).1 (lt_of_le_of_ne (hnn _) (Ne.symm hne))⟩
  · refine le_trans (Finset.card_le_card_of_injOn (t := Finset.range n) (fun p => (p : ℕ)) ?_ ?_) (by simp)
    · intro p hp
      obtain ⟨h, -⟩ := hval p (by simpa using hp)
      simpa using h
    · intro a _ b _ hab
      exact Fin.ext hab

theorem TreeInv.mono {rows count : ℕ} {pf : Fin n → Fin m → K} {target : Fin (m + 1) → K} {good : Fin n → Prop} {S S' : ℕ}
    {st : Data (rows * count) ℤ K} (h : TreeInv pf target good S st) (hS : S ≤ S') : TreeInv pf target good S' st :=
  ⟨h.nonneg, h.sum, h.inj, h.valid, h.card.trans hS⟩

theorem target_zero {X : Type*} (test : X → Fin m → K) (d : Data n X K) (hw : ∀ t, 0 ≤ d.weights t)
    (hpos : ∃ t, 0 < d.weights t) : targetMeans test d 0 = 1 := by
  obtain ⟨t0, ht0⟩ := hpos
  have hs : 0 < ∑ j, d.weights j := Finset.sum_pos' (fun j _ => hw j) ⟨t0, Finset.mem_univ _, ht0⟩
  simp only [targetMeans, augment, Fin.cons_zero, mul_one]
  exact div_self hs.ne'

/-- C27: after `i` of the `D` levels at most `(m + 1) * c ^ (D - i)` entries carry weight, the total mass and the means of
all test functions are those of the (normalised) dataset, no weight is negative, no two entries with weight refer to the
same row, and every entry with weight refers to a real row (not to padding) that had positive weight. In particular no
level fails. For every depth `D` at which the tree holds all nodes. -/
theorem C27_levels_at {X : Type*} (big : K) (null : NullResolver K) (hnull : ∀ n m (nodes : Fin n → Fin m → K),
      NullBasis nodes (null n m nodes).1 (null n m nodes).2) (test : X → Fin m → K) (c : ℕ) [NeZero c] (hc : 1 < c) (D : ℕ) (hD : 1 ≤ D) (hle : n ≤ (m + 1) * c ^ D)
    (d : Data n X K) (hw : ∀ t, 0 ≤ d.weights t) (hpos : ∃ t, 0 < d.weights t) (i : ℕ)
    (hi : i ≤ D) :
    ∃ st, treeLoop (rows := c ^ (D - 1)) (count := c * (m + 1)) big null (fun t => test (d.data t)) i
        (treeInit _ (d.normalizePZ big).weights) = some st ∧
      TreeInv (fun t => test (d.data t)) (targetMeans test d) (fun r => 0 < d.weights r)
        ((m + 1) * c ^ (D - i)) st ∧
      (i = D → IndepOn (fun p => augment (test (d.data (gatherIdx n (st.data p))))) (fun p => st.weights p ≠ 0)) := by
  induction i with
  | zero =>
    refine ⟨_, rfl, (treeInit_inv big test d hw hpos ?_).mono hle, fun h => by omega⟩
    refine hle.trans (le_of_eq ?_)
    obtain ⟨D', hDe⟩ : ∃ D', D = D' + 1 := ⟨_, (Nat.sub_add_cancel hD).symm⟩
    rw [hDe, Nat.add_sub_cancel, pow_succ]
    ring
  | succ i ih =>
    obtain ⟨st, h1, h2, -⟩ := ih (by omega)
    have e : (m + 1) * c ^ (D - i) = c * (m + 1) * c ^ (D - (i + 1)) := by
      rw [show D - i = D - (i + 1) + 1 by omega, pow_succ]
      ring
    rw [e] at h2
    obtain ⟨st', h3, h4, h5⟩ := treeStep_spec big null hnull (fun t => test (d.data t)) (target_zero test d hw hpos) h2
    refine ⟨st', ?_, h4, fun hh => h5 ?_⟩
    · have : treeLoop (rows := c ^ (D - 1)) (count := c * (m + 1)) big null (fun t => test (d.data t)) (i + 1)
          (treeInit _ (d.normalizePZ big).weights) =
          (treeLoop (rows := c ^ (D - 1)) (count := c * (m + 1)) big null (fun t => test (d.data t)) i
          (treeInit _ (d.normalizePZ big).weights)).bind (treeStep big null (fun t => test (d.data t))) := rfl
      rw [this, h1]
      exact h3
    · rw [← hh, Nat.sub_self, pow_zero]

/-- The state after all levels. For every depth `D` at which the tree holds all nodes. -/
theorem tree_final_at {X : Type*} (big : K) (null : NullResolver K) (hnull : ∀ n m (nodes : Fin n → Fin m → K),
      NullBasis nodes (null n m nodes).1 (null n m nodes).2) (test : X → Fin m → K) (c : ℕ) [NeZero c]
    (hc : 1 < c) (D : ℕ) (hD : 1 ≤ D) (hle : n ≤ (m + 1) * c ^ D) (d : Data n X K) (hw : ∀ t, 0 ≤ d.weights t) (hpos : ∃ t, 0 < d.weights t) :
    ∃ st : Data (c ^ (D - 1) * (c * (m + 1))) ℤ K,
      (∀ mode, treeReduceAt big null test mode c D d = some (coresubsetNodes n (m + 1) st.weights st.data mode)) ∧
      TreeInv (fun t => test (d.data t)) (targetMeans test d) (fun r => 0 < d.weights r) (m + 1) st ∧
      IndepOn (fun p => augment (test (d.data (gatherIdx n (st.data p))))) (fun p => st.weights p ≠ 0) ∧
      (∀ p, st.weights p ≠ 0 → ((gatherIdx n (st.data p) : ℕ) : ℤ) = st.data p ∧ 0 < d.weights (gatherIdx n (st.data p))) ∧
      (flatNonzero st.weights).length ≤ min n (m + 1) ∧ n ≤ c ^ (D - 1) * (c * (m + 1)) := by
  obtain ⟨st, h1, h2, h3⟩ := C27_levels_at big null hnull test c hc D hD hle d hw hpos (D) le_rfl
  have h4 := h3 rfl
  have hlen1 : (flatNonzero st.weights).length ≤ m + 1 := by
    rw [length_flatNonzero]
    have := h2.card
    rwa [Nat.sub_self, pow_zero, mul_one] at this
  have hrow : ∀ p, st.weights p ≠ 0 → ((gatherIdx n (st.data p) : ℕ) : ℤ) = st.data p ∧ 0 < d.weights (gatherIdx n (st.data p)) := by
    intro p hp
    obtain ⟨i, hi, hg⟩ := h2.valid p hp
    rw [hi, gatherIdx_coe]
    exact ⟨rfl, hg⟩
  have hlen2 : (flatNonzero st.weights).length ≤ n := by
    rw [length_flatNonzero]
    have : (Finset.univ.filter (fun t => st.weights t ≠ 0)).card ≤ (Finset.univ : Finset (Fin n)).card := by
      refine Finset.card_le_card_of_injOn (fun p => gatherIdx n (st.data p)) (fun _ _ => by simp) ?_
      intro a ha b hb hab
      have ha' : st.weights a ≠ 0 := by simpa using ha
      have hb' : st.weights b ≠ 0 := by simpa using hb
      refine h2.inj a b ha' hb' ?_
      rw [← (hrow a ha').1, ← (hrow b hb').1]
      exact congrArg (fun i : Fin n => ((i : ℕ) : ℤ)) hab
    simpa using this
  have hlen : (flatNonzero st.weights).length ≤ min n (m + 1) := le_min hlen2 hlen1
  have hN : n ≤ c ^ (D - 1) * (c * (m + 1)) := by
    refine hle.trans (le_of_eq ?_)
    obtain ⟨D', hDe⟩ : ∃ D', D = D' + 1 := ⟨_, (Nat.sub_add_cancel hD).symm⟩
    rw [hDe, Nat.add_sub_cancel, pow_succ]
    ring
  refine ⟨st, fun mode => ?_, h2.mono (by simp), h4, hrow, hlen, hN⟩
  exact (congrArg (Option.map (fun st => coresubsetNodes n (m + 1) st.weights st.data mode)) h1).trans rfl

/-- C24, C25, C27 for the tree solver: in every output mode the result has no negative weight, total mass one, the
dataset's (normalised) means of all test functions; its rows of positive weight are distinct rows of the dataset with
positive weight, at most as many as there are test functions including the constant one, and affinely independent under
the test functions. For every depth `D` at which the tree holds all nodes. -/
theorem C27_tree_at {X : Type*} (big : K) (null : NullResolver K) (hnull : ∀ n m (nodes : Fin n → Fin m → K),
      NullBasis nodes (null n m nodes).1 (null n m nodes).2) (test : X → Fin m → K) (mode : RecombMode) (c : ℕ) [NeZero c]
    (hc : 1 < c) (D : ℕ) (hD : 1 ≤ D) (hle : n ≤ (m + 1) * c ^ D) (d : Data n X K) (hw : ∀ t, 0 ≤ d.weights t) (hpos : ∃ t, 0 < d.weights t) :
    ∃ (k : ℕ) (o : Data k ℤ K), treeReduceAt big null test mode c D d = some ⟨k, o⟩ ∧ (∀ t, 0 ≤ o.weights t) ∧
      ∑ t, o.weights t = 1 ∧
      (∀ l, ∑ t, o.weights t * test (d.data (gatherIdx n (o.data t))) l
        = (∑ t, d.weights t * test (d.data t) l) / ∑ t, d.weights t) ∧
      (supportRows o).Nodup ∧ (supportRows o).length ≤ min n (m + 1) ∧
      (∀ r ∈ supportRows o, ∃ i : Fin n, r = ((i : ℕ) : ℤ) ∧ 0 < d.weights i) ∧
      IndepOn (fun i => augment (test (d.data i))) (fun i : Fin n => ((i : ℕ) : ℤ) ∈ supportRows o) := by
  obtain ⟨st, hred, h2, h4, hrow, hlen, hN⟩ := tree_final_at big null hnull test c hc D hD hle d hw hpos
  have hint := fun g => integral_coresubsetNodes st.weights h2.nonneg st.data hlen hN mode g
  have hsup := support_coresubsetNodes st.weights h2.nonneg st.data hlen hN mode
  have hrows : supportRows (coresubsetNodes n (m + 1) st.weights st.data mode).2 = (flatNonzero st.weights).map st.data := by
    unfold supportRows
    rw [hsup, List.map_map]
    rfl
  refine ⟨_, (coresubsetNodes n (m + 1) st.weights st.data mode).2, ?_, ?_, ?_, ?_, ?_, ?_, ?_, ?_⟩
  · exact hred mode
  · intro t
    obtain ⟨s, -, hs⟩ := coresubsetNodes_mem st.weights st.data n (m + 1) mode t
    rw [hs]
    exact h2.nonneg s
  · have h6 := hint (fun _ => 1)
    unfold integral at h6
    simp only [mul_one] at h6
    rw [h6]
    have h7 := h2.sum 0
    simp only [augment, Fin.cons_zero, mul_one] at h7
    rw [h7, target_zero test d hw hpos]
  · intro l
    have h6 := hint (fun i => test (d.data (gatherIdx n i)) l)
    unfold integral at h6
    rw [h6]
    have h7 := h2.sum l.succ
    simp only [targetMeans, augment, Fin.cons_succ] at h7
    exact h7
  · rw [hrows]
    refine List.Nodup.map_on ?_ (nodup_flatNonzero st.weights)
    intro s hs' t ht hst
    exact h2.inj s t (mem_flatNonzero.1 hs') (mem_flatNonzero.1 ht) hst
  · rw [hrows, List.length_map]
    exact hlen
  · rw [hrows]
    intro r hr
    obtain ⟨p, hp, rfl⟩ := List.mem_map.1 hr
    exact h2.valid p (mem_flatNonzero.1 hp)
  · refine indep_rows (nodes := fun i => augment (test (d.data i))) (f := fun p => gatherIdx n (st.data p)) h4 (fun i => ?_)
    rw [hrows, List.mem_map]
    constructor
    · rintro ⟨t, ht, hti⟩
      exact ⟨t, mem_flatNonzero.1 ht, by rw [hti, gatherIdx_coe]⟩
    · rintro ⟨t, ht, rfl⟩
      exact ⟨t, mem_flatNonzero.2 ht, ((hrow t ht).1).symm⟩

/-- C24 for the tree solver. For every depth `D` at which the tree holds all nodes. -/
theorem C24_tree_at {X : Type*} (big : K) (null : NullResolver K) (hnull : ∀ n m (nodes : Fin n → Fin m → K),
      NullBasis nodes (null n m nodes).1 (null n m nodes).2) (test : X → Fin m → K) (mode : RecombMode) (c : ℕ) [NeZero c]
    (hc : 1 < c) (D : ℕ) (hD : 1 ≤ D) (hle : n ≤ (m + 1) * c ^ D) (d : Data n X K) (hw : ∀ t, 0 ≤ d.weights t) (hpos : ∃ t, 0 < d.weights t) :
    ∃ (k : ℕ) (o : Data k ℤ K), treeReduceAt big null test mode c D d = some ⟨k, o⟩ ∧ (∀ t, 0 ≤ o.weights t) ∧
      ∑ t, o.weights t = 1 ∧ ∀ l, ∑ t, o.weights t * test (d.data (gatherIdx n (o.data t))) l
        = (∑ t, d.weights t * test (d.data t) l) / ∑ t, d.weights t := by
  obtain ⟨k, o, h1, h2, h3, h4, -⟩ := C27_tree_at big null hnull test mode c hc D hD hle d hw hpos
  exact ⟨k, o, h1, h2, h3, h4⟩

/-- C26 for the tree solver: the three modes have the same support, and the stated lengths. For every depth `D` at which the tree holds all nodes. -/
theorem C26_tree_at {X : Type*} (big : K) (null : NullResolver K) (hnull : ∀ n m (nodes : Fin n → Fin m → K),
      NullBasis nodes (null n m nodes).1 (null n m nodes).2) (test : X → Fin m → K) (c : ℕ) [NeZero c]
    (hc : 1 < c) (D : ℕ) (hD : 1 ≤ D) (hle : n ≤ (m + 1) * c ^ D) (d : Data n X K) (hw : ∀ t, 0 ≤ d.weights t) (hpos : ∃ t, 0 < d.weights t) :
    ∃ L : List (ℤ × K), ∀ mode, ∃ (k : ℕ) (o : Data k ℤ K), treeReduceAt big null test mode c D d = some ⟨k, o⟩ ∧ support o = L ∧
      (mode = .explicit → k = L.length) ∧ (mode = .implicit → k = n) ∧ (mode = .implicitExplicit → k = min n (m + 1)) := by
  obtain ⟨st, hred, h2, -, -, hlen, hN⟩ := tree_final_at big null hnull test c hc D hD hle d hw hpos
  refine ⟨_, fun mode => ⟨_, _, hred mode, support_coresubsetNodes st.weights h2.nonneg st.data hlen hN mode, ?_, ?_, ?_⟩⟩
  · rintro rfl; rw [List.length_map]
  · rintro rfl; rfl
  · rintro rfl; rfl

/-! ### At the depth of the exact logarithm -/

/-- C27: after `i` of the `D` levels at most `(m + 1) * c ^ (D - i)` entries carry weight, the total mass and the means of
all test functions are those of the (normalised) dataset, no weight is negative, no two entries with weight refer to the
same row, and every entry with weight refers to a real row (not to padding) that had positive weight. In particular no
level fails. -/
theorem C27_levels {X : Type*} (big : K) (null : NullResolver K) (hnull : ∀ n m (nodes : Fin n → Fin m → K),
      NullBasis nodes (null n m nodes).1 (null n m nodes).2) (test : X → Fin m → K) (c : ℕ) [NeZero c] (hc : 1 < c)
    (d : Data n X K) (hw : ∀ t, 0 ≤ d.weights t) (hpos : ∃ t, 0 < d.weights t) (i : ℕ)
    (hi : i ≤ treeDepth n (m + 1) c) :
    ∃ st, treeLoop (rows := c ^ (treeDepth n (m + 1) c - 1)) (count := c * (m + 1)) big null (fun t => test (d.data t)) i
        (treeInit _ (d.normalizePZ big).weights) = some st ∧
      TreeInv (fun t => test (d.data t)) (targetMeans test d) (fun r => 0 < d.weights r)
        ((m + 1) * c ^ (treeDepth n (m + 1) c - i)) st ∧
      (i = treeDepth n (m + 1) c → IndepOn (fun p => augment (test (d.data (gatherIdx n (st.data p))))) (fun p => st.weights p ≠ 0)) :=
  C27_levels_at big null hnull test c hc _ (treeDepth_pos n (m + 1) c) (le_tree_cells (by omega) hc) d hw hpos i hi

/-- The state after all levels. -/
theorem tree_final {X : Type*} (big : K) (null : NullResolver K) (hnull : ∀ n m (nodes : Fin n → Fin m → K),
      NullBasis nodes (null n m nodes).1 (null n m nodes).2) (test : X → Fin m → K) (c : ℕ) [NeZero c]
    (hc : 1 < c) (d : Data n X K) (hw : ∀ t, 0 ≤ d.weights t) (hpos : ∃ t, 0 < d.weights t) :
    ∃ st : Data (c ^ (treeDepth n (m + 1) c - 1) * (c * (m + 1))) ℤ K,
      (∀ mode, treeReduce big null test mode c d = some (coresubsetNodes n (m + 1) st.weights st.data mode)) ∧
      TreeInv (fun t => test (d.data t)) (targetMeans test d) (fun r => 0 < d.weights r) (m + 1) st ∧
      IndepOn (fun p => augment (test (d.data (gatherIdx n (st.data p))))) (fun p => st.weights p ≠ 0) ∧
      (∀ p, st.weights p ≠ 0 → ((gatherIdx n (st.data p) : ℕ) : ℤ) = st.data p ∧ 0 < d.weights (gatherIdx n (st.data p))) ∧
      (flatNonzero st.weights).length ≤ min n (m + 1) ∧ n ≤ c ^ (treeDepth n (m + 1) c - 1) * (c * (m + 1)) :=
  tree_final_at big null hnull test c hc _ (treeDepth_pos n (m + 1) c) (le_tree_cells (by omega) hc) d hw hpos

/-- C24, C25, C27 for the tree solver: in every output mode the result has no negative weight, total mass one, the
dataset's (normalised) means of all test functions; its rows of positive weight are distinct rows of the dataset with
positive weight, at most as many as there are test functions including the constant one, and affinely independent under
the test functions. -/
theorem C27_tree {X : Type*} (big : K) (null : NullResolver K) (hnull : ∀ n m (nodes : Fin n → Fin m → K),
      NullBasis nodes (null n m nodes).1 (null n m nodes).2) (test : X → Fin m → K) (mode : RecombMode) (c : ℕ) [NeZero c]
    (hc : 1 < c) (d : Data n X K) (hw : ∀ t, 0 ≤ d.weights t) (hpos : ∃ t, 0 < d.weights t) :
    ∃ (k : ℕ) (o : Data k ℤ K), treeReduce big null test mode c d = some ⟨k, o⟩ ∧ (∀ t, 0 ≤ o.weights t) ∧
      ∑ t, o.weights t = 1 ∧
      (∀ l, ∑ t, o.weights t * test (d.data (gatherIdx n (o.data t))) l
        = (∑ t, d.weights t * test (d.data t) l) / ∑ t, d.weights t) ∧
      (supportRows o).Nodup ∧ (supportRows o).length ≤ min n (m + 1) ∧
      (∀ r ∈ supportRows o, ∃ i : Fin n, r = ((i : ℕ) : ℤ) ∧ 0 < d.weights i) ∧
      IndepOn (fun i => augment (test (d.data i))) (fun i : Fin n => ((i : ℕ) : ℤ) ∈ supportRows o) :=
  C27_tree_at big null hnull test mode c hc _ (treeDepth_pos n (m + 1) c) (le_tree_cells (by omega) hc) d hw hpos

/-- C24 for the tree solver. -/
theorem C24_tree {X : Type*} (big : K) (null : NullResolver K) (hnull : ∀ n m (nodes : Fin n → Fin m → K),
      NullBasis nodes (null n m nodes).1 (null n m nodes).2) (test : X → Fin m → K) (mode : RecombMode) (c : ℕ) [NeZero c]
    (hc : 1 < c) (d : Data n X K) (hw : ∀ t, 0 ≤ d.weights t) (hpos : ∃ t, 0 < d.weights t) :
    ∃ (k : ℕ) (o : Data k ℤ K), treeReduce big null test mode c d = some ⟨k, o⟩ ∧ (∀ t, 0 ≤ o.weights t) ∧
      ∑ t, o.weights t = 1 ∧ ∀ l, ∑ t, o.weights t * test (d.data (gatherIdx n (o.data t))) l
        = (∑ t, d.weights t * test (d.data t) l) / ∑ t, d.weights t :=
  C24_tree_at big null hnull test mode c hc _ (treeDepth_pos n (m + 1) c) (le_tree_cells (by omega) hc) d hw hpos

/-- C26 for the tree solver: the three modes have the same support, and the stated lengths. -/
theorem C26_tree {X : Type*} (big : K) (null : NullResolver K) (hnull : ∀ n m (nodes : Fin n → Fin m → K),
      NullBasis nodes (null n m nodes).1 (null n m nodes).2) (test : X → Fin m → K) (c : ℕ) [NeZero c]
    (hc : 1 < c) (d : Data n X K) (hw : ∀ t, 0 ≤ d.weights t) (hpos : ∃ t, 0 < d.weights t) :
    ∃ L : List (ℤ × K), ∀ mode, ∃ (k : ℕ) (o : Data k ℤ K), treeReduce big null test mode c d = some ⟨k, o⟩ ∧ support o = L ∧
      (mode = .explicit → k = L.length) ∧ (mode = .implicit → k = n) ∧ (mode = .implicitExplicit → k = min n (m + 1)) :=
  C26_tree_at big null hnull test c hc _ (treeDepth_pos n (m + 1) c) (le_tree_cells (by omega) hc) d hw hpos

end

end Coreax
