import Verif.Lemmas.MapReduce

/-!
# C22, C23: map-reduce (`coreax/solvers/composite.py`)

C23 — when the recursion ends, and how fast.  C22 — validity of the indices.
-/

set_option linter.unusedSectionVars false

namespace Coreax

open Spec

/-- The constructor accepts exactly the explicit-size base solvers with fewer points than the leaf size. -/
theorem C23_check_init (leaf : ℤ) (size : Option ℤ) :
    (mrCheckInit leaf size = .ok () ↔ ∃ s, size = some s ∧ s < leaf) ∧
    (mrCheckInit leaf size ≠ .ok () → mrCheckInit leaf size = .error .valueError) := by
  cases size with
  | none => simp [mrCheckInit]
  | some s =>
    by_cases h : leaf ≤ s
    · simp [mrCheckInit, h]
    · simp [mrCheckInit, h]
      omega

example : mrCheckInit 10 (some 9) = .ok () ∧ mrCheckInit 10 (some 10) = .error .valueError ∧
    mrCheckInit 10 none = .error .valueError := by decide

/-- The partitions: padding completes the rows to equally large partitions, there are fewer padding rows than
partitions, and a partition has more than half a leaf and at most a leaf of rows. -/
theorem C23_partition {n leaf : ℕ} [NeZero n] (h0 : 2 ≤ leaf) (h : leaf < n) :
    n + mrPadding n leaf = nLeaves n leaf * partRows n leaf ∧ mrPadding n leaf < nLeaves n leaf ∧
    2 ≤ nLeaves n leaf ∧ leaf / 2 < partRows n leaf ∧ partRows n leaf ≤ leaf := by
  obtain ⟨h1, h2⟩ := partRows_bounds h0 h
  obtain ⟨h3, h4⟩ := partRows_spec n leaf
  refine ⟨add_mrPadding n leaf, by unfold mrPadding; omega, ?_, h1, by omega⟩
  have hh : halfLeaf leaf = leaf / 2 := by unfold halfLeaf; omega
  unfold nLeaves
  have : 0 < Nat.log 2 ((n - 1) / halfLeaf leaf) := by
    apply Nat.log_pos (by norm_num)
    rw [hh, Nat.le_div_iff_mul_le (by omega)]
    omega
  calc 2 = 2 ^ 1 := rfl
    _ ≤ _ := Nat.pow_le_pow_right (by norm_num) this

example : nLeaves 21 10 = 4 ∧ partRows 21 10 = 6 ∧ mrPadding 21 10 = 3 := by decide +kernel

/-- How much one round shrinks the data: by at least the factor `size / (leaf / 2)`. -/
theorem C23_shrink {n leaf size : ℕ} (h0 : 2 ≤ leaf) (h : leaf < n) :
    nLeaves n leaf * size * (leaf / 2) ≤ (n - 1) * size ∧
    (size ≤ leaf / 2 → nLeaves n leaf * size < n) := by
  refine ⟨?_, round_shrinks h0 h⟩
  have hh : halfLeaf leaf = leaf / 2 := by unfold halfLeaf; omega
  have h1 := nLeaves_le (by omega) h
  rw [hh] at h1
  calc nLeaves n leaf * size * (leaf / 2) = nLeaves n leaf * (leaf / 2) * size := by ring
    _ ≤ _ := Nat.mul_le_mul_right _ h1

example : nLeaves 21 10 * 5 < 21 := (C23_shrink (size := 5) (by norm_num) (by norm_num : 10 < 21)).2 (by norm_num)

/-- The documented rate, `size / leaf` per round, is wrong: half of that is what the code achieves. -/
theorem C23_documented_rate_fails : ∃ n leaf size : ℕ, 2 ≤ leaf ∧ leaf < n ∧ size ≤ leaf / 2 ∧
    n * size < nLeaves n leaf * size * leaf :=
  ⟨21, 10, 5, by norm_num, by norm_num, by norm_num, by decide +kernel⟩

section Run
variable {X K : Type*} [Zero X] [Field K] [LinearOrder K] [IsStrictOrderedRing K] {size : ℕ} [NeZero size]

/-- More fuel does not change a result. -/
theorem mrRun_mono (leaf : ℕ) (base : BaseSolver X K size) (tree : TreeIndices X K) : ∀ (fuel : ℕ) {n : ℕ} [NeZero n]
    (d : Data n X K) (idx : Option (Fin n → ℤ)) (r : Except Err (Data size ℤ K)),
    mrRun leaf base tree fuel n d idx = some r → ∀ fuel', fuel ≤ fuel' → mrRun leaf base tree fuel' n d idx = some r
  | 0, _, _, _, _, _, h, _, _ => by simp [mrRun] at h
  | fuel + 1, n, _, d, idx, r, h, fuel', hf => by
    obtain ⟨f', rfl⟩ : ∃ f', fuel' = f' + 1 := ⟨fuel' - 1, by omega⟩
    simp only [mrRun] at h ⊢
    split_ifs at h ⊢ with hn
    · exact h
    · cases hs : seqFin (nLeaves n leaf) (fun q => base (partRows n leaf) (partData leaf tree d q)) with
      | error e => simp only [hs] at h ⊢; exact h
      | ok c =>
        simp only [hs] at h ⊢
        exact mrRun_mono leaf base tree fuel _ _ _ h f' (by omega)

/-- From `2 ^ i * size` rows, `i + 1` rounds suffice. -/
theorem mrRun_pow (leaf : ℕ) (h0 : 2 ≤ leaf) (hs : size ≤ leaf / 2) (base : BaseSolver X K size)
    (tree : TreeIndices X K) : ∀ (fuel i n : ℕ) [NeZero n] (d : Data n X K) (idx : Option (Fin n → ℤ)),
    n = 2 ^ i * size → i + 1 ≤ fuel → (mrRun leaf base tree fuel n d idx).isSome
  | 0, _, _, _, _, _, _, h => by omega
  | fuel + 1, i, n, _, d, idx, hn, hf => by
    simp only [mrRun]
    split_ifs with hle
    · rfl
    · cases hq : seqFin (nLeaves n leaf) (fun q => base (partRows n leaf) (partData leaf tree d q)) with
      | error e => rfl
      | ok r =>
        simp only
        have hlt := round_shrinks h0 (not_le.1 hle) hs
        refine mrRun_pow leaf h0 hs base tree fuel _ _ _ _ rfl ?_
        rw [hn] at hlt
        have h1 : nLeaves (2 ^ i * size) leaf < 2 ^ i := Nat.lt_of_mul_lt_mul_right hlt
        rw [hn]
        have h2 : Nat.log 2 ((2 ^ i * size - 1) / halfLeaf leaf) < i := by
          by_contra hc
          have := Nat.pow_le_pow_right (n := 2) (by norm_num) (not_lt.1 hc)
          unfold nLeaves at h1
          omega
        omega

/-- Termination: if the coreset fits half a leaf, the recursion ends for every base solver, tree and dataset, after at
most `log₂ ((n - 1) / (leaf / 2)) + 2` calls; the number of calls allowed beyond that does not matter. -/
theorem C23_terminates (leaf : ℕ) (h0 : 2 ≤ leaf) (hs : size ≤ leaf / 2) (base : BaseSolver X K size)
    (tree : TreeIndices X K) {n : ℕ} [NeZero n] (d : Data n X K) :
    ∃ r, ∀ fuel, Nat.log 2 ((n - 1) / (leaf / 2)) + 2 ≤ fuel → mrRun leaf base tree fuel n d none = some r := by
  have key : (mrRun leaf base tree (Nat.log 2 ((n - 1) / (leaf / 2)) + 2) n d none).isSome := by
    have hh : halfLeaf leaf = leaf / 2 := by unfold halfLeaf; omega
    rw [mrRun]
    split_ifs with hle
    · rfl
    · cases hq : seqFin (nLeaves n leaf) (fun q => base (partRows n leaf) (partData leaf tree d q)) with
      | error e => rfl
      | ok r =>
        simp only
        exact mrRun_pow leaf h0 hs base tree (Nat.log 2 ((n - 1) / (leaf / 2)) + 1)
          (Nat.log 2 ((n - 1) / halfLeaf leaf)) _ _ _ rfl (by rw [hh])
  obtain ⟨r, hr⟩ := Option.isSome_iff_exists.1 key
  exact ⟨r, fun fuel hf => mrRun_mono leaf base tree _ _ _ _ hr fuel hf⟩

example (base : BaseSolver ℚ ℚ 5) (tree : TreeIndices ℚ ℚ) (d : Data 21 ℚ ℚ) := C23_terminates 10 (by norm_num) (by norm_num) base tree d

/-- In the range `leaf / 2 < size < leaf` a round that ends with more than a leaf reproduces its own size. -/
theorem nLeaves_fixed {n leaf size : ℕ} (h0 : 2 ≤ leaf) (h : leaf < n) (hl : leaf / 2 < size) (hu : size < leaf) :
    leaf < nLeaves n leaf * size ∧ nLeaves (nLeaves n leaf * size) leaf = nLeaves n leaf ∧
    partRows (nLeaves n leaf * size) leaf = size := by
  have : NeZero n := ⟨by omega⟩
  have hh : halfLeaf leaf = leaf / 2 := by unfold halfLeaf; omega
  obtain ⟨-, -, h2, -, -⟩ := C23_partition h0 h
  set L := nLeaves n leaf with hL
  have h3 : L * (leaf / 2 + 1) ≤ L * size := Nat.mul_le_mul_left _ hl
  have h4 : 2 * size ≤ L * size := Nat.mul_le_mul_right _ h2
  have h5 : L * size ≤ L * (2 * (leaf / 2)) := Nat.mul_le_mul_left _ (by omega)
  have h6 : nLeaves (L * size) leaf = L := by
    have hLv : L = 2 ^ Nat.log 2 ((n - 1) / halfLeaf leaf) := rfl
    clear_value L
    have e3 : L * (leaf / 2 + 1) = L * (leaf / 2) + L := by ring
    have e4 : L * (2 * (leaf / 2)) = 2 * L * (leaf / 2) := by ring
    have hpos : 0 < L * size := Nat.mul_pos (by omega) (by omega)
    unfold nLeaves
    conv_rhs => rw [hLv]
    congr 1
    rw [Nat.log_eq_iff (Or.inr ⟨by norm_num, ?_⟩)]
    · rw [pow_succ, ← hLv, hh, Nat.le_div_iff_mul_le (by omega), Nat.div_lt_iff_lt_mul (by omega), mul_comm L 2]
      omega
    · rw [hh]
      have : leaf / 2 ≤ L * size - 1 := by
        have : 1 * (leaf / 2 + 1) ≤ L * (leaf / 2 + 1) := Nat.mul_le_mul_right _ (by omega)
        omega
      exact (Nat.div_pos this (by omega)).ne'
  refine ⟨by omega, h6, ?_⟩
  unfold partRows
  rw [h6]
  have hp : 0 < L := by omega
  rw [Nat.div_eq_iff hp]
  rw [mul_comm size L]
  omega

/-- No success: if the coreset is larger than half a leaf (still accepted by the constructor) and there is more than a
leaf of data, then no number of rounds ever yields a coreset, whatever the base solver and the tree. -/
theorem C23_never_succeeds (leaf : ℕ) (h0 : 2 ≤ leaf) (hl : leaf / 2 < size) (hu : size < leaf) (base : BaseSolver X K size)
    (tree : TreeIndices X K) (fuel : ℕ) {n : ℕ} [NeZero n] (hn : leaf < n) (d : Data n X K) (idx : Option (Fin n → ℤ))
    (c : Data size ℤ K) : mrRun leaf base tree fuel n d idx ≠ some (.ok c) := by
  induction fuel generalizing n with
  | zero => simp [mrRun]
  | succ fuel ih =>
    simp only [mrRun, if_neg (not_le.2 hn)]
    cases hq : seqFin (nLeaves n leaf) (fun q => base (partRows n leaf) (partData leaf tree d q)) with
    | error e => simp
    | ok r =>
      simp only
      exact ih (nLeaves_fixed h0 hn hl hu).1 _ _

example (base : BaseSolver ℚ ℚ 2) (tree : TreeIndices ℚ ℚ) (d : Data 4 ℚ ℚ) := C23_never_succeeds 3 (by norm_num) (by norm_num) (by norm_num) base tree 100 (by norm_num) d none

/-- Divergence: with a base solver that succeeds on at least `size` rows, the recursion then never ends, if the first
partitions have at least `size` rows; -/
theorem C23_diverges (leaf : ℕ) (h0 : 2 ≤ leaf) (hl : leaf / 2 < size) (hu : size < leaf) (base : BaseSolver X K size)
    (hbase : ∀ (m : ℕ) [NeZero m] (d : Data m X K), size ≤ m → ∃ c, base m d = .ok c)
    (tree : TreeIndices X K) (fuel : ℕ) {n : ℕ} [NeZero n] (hn : leaf < n) (hrows : size ≤ partRows n leaf)
    (d : Data n X K) (idx : Option (Fin n → ℤ)) : mrRun leaf base tree fuel n d idx = none := by
  induction fuel generalizing n with
  | zero => rfl
  | succ fuel ih =>
    obtain ⟨h1, h2, h3⟩ := nLeaves_fixed h0 hn hl hu
    choose c hc using fun q => hbase (partRows n leaf) (partData leaf tree d q) hrows
    simp only [mrRun, if_neg (not_le.2 hn)]
    rw [seqFin_ok _ _ c hc]
    exact ih h1 h3.ge _ _

/-- A solver that always returns rows 0 and 1. -/
example (tree : TreeIndices ℚ ℚ) (d : Data 4 ℚ ℚ) := C23_diverges 3 (by norm_num) (by norm_num) (by norm_num) (fun _ _ _ => .ok ⟨![0, 1], ![1, 1]⟩) (fun _ _ _ _ => ⟨_, rfl⟩) tree 100
  (by norm_num) (by decide +kernel) d none

/-- and it raises the base solver's `ValueError` if they have fewer. -/
theorem C23_raises (leaf : ℕ) (base : BaseSolver X K size)
    (hbase : ∀ (m : ℕ) [NeZero m] (d : Data m X K), m < size → base m d = .error .valueError)
    (tree : TreeIndices X K) (fuel : ℕ) {n : ℕ} [NeZero n] (hn : leaf < n) (hrows : partRows n leaf < size)
    (d : Data n X K) (idx : Option (Fin n → ℤ)) :
    mrRun leaf base tree (fuel + 1) n d idx = some (.error .valueError) := by
  simp only [mrRun, if_neg (not_le.2 hn)]
  rw [seqFin_error (NeZero.pos _) _ .valueError (fun q => hbase _ _ hrows)]

/-! ### Validity of the indices -/

/-- What the recursion is to return for the dataset `orig`: distinct rows with positive weights, chosen by one final call
of the base solver on at most a leaf of distinct rows of `orig`. -/
def MapReduceSpec (leaf : ℕ) (base : BaseSolver X K size) {N : ℕ} [NeZero N] (orig : Data N X K)
    (res : Data size ℤ K) : Prop :=
  ∃ f : Fin size → Fin N, (∀ t, res.data t = ((f t : ℕ) : ℤ)) ∧ Function.Injective f ∧ (∀ t, 0 < res.weights t) ∧
    ∃ (M : ℕ) (_ : NeZero M) (e : Data M X K) (sub : Fin M → Fin N) (g : Fin size → Fin M), M ≤ leaf ∧
      Function.Injective sub ∧ (∀ t, e.data t = orig.data (sub t)) ∧ (∀ t, 0 < e.weights t) ∧
      base M e = .ok ⟨fun t => ((g t : ℕ) : ℤ), res.weights⟩ ∧ f = sub ∘ g

theorem posCount_of_pos {n m : ℕ} [NeZero n] {w : Fin n → K} (h : ∀ t, 0 < w t) (hm : m ≤ n) : PosCount w m := by
  unfold PosCount
  rw [Finset.filter_true_of_mem (fun t _ => h t)]
  simpa using hm

theorem part_pos_of_no_padding (leaf : ℕ) (tree : TreeIndices X K) {n : ℕ} [NeZero n] (d : Data n X K)
    (hw : ∀ t, 0 < d.weights t) (hp : mrPadding n leaf = 0) (q) (t) : 0 < (partData leaf tree d q).weights t := by
  simp only [partData, Data.getItem]
  generalize gatherIdx (n + mrPadding n leaf) _ = i
  rw [(pad_data d i (by have := i.2; omega)).2]
  exact hw _

theorem mrRun_spec (leaf : ℕ) (h0 : 2 ≤ leaf) (hs : size ≤ leaf / 2) (base : BaseSolver X K size) (hb : BaseContract base)
    (tree : TreeIndices X K) (ht : TreeContract tree) {N : ℕ} [NeZero N] (orig : Data N X K) :
    ∀ (fuel : ℕ) {n : ℕ} [NeZero n] (d : Data n X K) (idx : Option (Fin n → ℤ)) (g : Fin n → Fin N), n ≤ fuel → size ≤ n →
      (∀ t, 0 < d.weights t) → (leaf < n → ∀ q, PosCount (partData leaf tree d q).weights size) →
      Function.Injective g → (∀ t, d.data t = orig.data (g t)) →
      (∀ (m : ℕ) (i : Fin m → Fin n), composeIdx idx (fun t => ((i t : ℕ) : ℤ)) = fun t => ((g (i t) : ℕ) : ℤ)) →
      ∃ res, mrRun leaf base tree fuel n d idx = some (.ok res) ∧ MapReduceSpec leaf base orig res
  | 0, n, _, _, _, _, hf, _, _, _, _, _, _ => absurd (NeZero.pos n) (by omega)
  | fuel + 1, n, _, d, idx, g, hf, hn, hw, hpart, hinj, hdata, hidx => by
    simp only [mrRun]
    split_ifs with hle
    · obtain ⟨f, w, h1, h2, h3, h4⟩ := hb n d (posCount_of_pos hw hn)
      refine ⟨⟨fun t => ((g (f t) : ℕ) : ℤ), w⟩, ?_, g ∘ f, fun t => rfl, hinj.comp h2, h4, n, inferInstance, d, g, f, hle,
        hinj, hdata, hw, h1, rfl⟩
      rw [h1]
      simp only
      rw [hidx]
    · have hlt := not_le.1 hle
      obtain ⟨r, s, h1, h2, h3, h4, h5⟩ := round_spec leaf base hb tree ht d (hpart hlt)
      rw [h1]
      simp only
      have hsh := round_shrinks h0 hlt hs
      refine mrRun_spec leaf h0 hs base hb tree ht orig fuel _ _ (g ∘ s) (by omega) ?_ h5 ?_ (hinj.comp h2) ?_ ?_
      · exact Nat.le_mul_of_pos_left _ (NeZero.pos _)
      · intro hlt' q
        obtain ⟨hb1, _⟩ := partRows_bounds h0 hlt'
        refine posCount_of_pos (part_pos_of_no_padding leaf tree _ h5 ?_ q) (by omega)
        exact no_padding h0 (NeZero.pos size) hs hlt'
      · intro t
        rw [h4]
        exact hdata _
      · intro m i
        rw [h3, hidx]
        funext t
        simp only [composeIdx, gatherIdx_coe]
        rfl

/-- C22: with a coreset of at most half a leaf, positively weighted data and enough rows besides padding in each
partition of the first round, map-reduce returns distinct rows of the original dataset with positive weights, chosen by
the base solver from at most a leaf of original rows.  Later rounds need no padding at all. -/
theorem C22_valid (leaf : ℕ) (h0 : 2 ≤ leaf) (hs : size ≤ leaf / 2) (base : BaseSolver X K size) (hb : BaseContract base)
    (tree : TreeIndices X K) (ht : TreeContract tree) {N : ℕ} [NeZero N] (d : Data N X K) (hN : size ≤ N)
    (hw : ∀ t, 0 < d.weights t) (hpart : leaf < N → ∀ q, PosCount (partData leaf tree d q).weights size) :
    ∃ res, (∀ fuel, Nat.log 2 ((N - 1) / (leaf / 2)) + 2 ≤ fuel → mrRun leaf base tree fuel N d none = some (.ok res)) ∧
      MapReduceSpec leaf base d res := by
  obtain ⟨r, hr⟩ := C23_terminates leaf h0 hs base tree d
  obtain ⟨res, h1, h2⟩ := mrRun_spec leaf h0 hs base hb tree ht d (max N (Nat.log 2 ((N - 1) / (leaf / 2)) + 2)) d none id
    (le_max_left _ _) hN hw hpart Function.injective_id (fun _ => rfl) (fun _ _ => rfl)
  have h3 := hr _ (le_max_right N _)
  rw [h1] at h3
  refine ⟨res, fun fuel hf => ?_, h2⟩
  rw [hr fuel hf, h3]

/-- The condition on the first round holds if the partitions exceed the padding by the coreset size: -/
theorem C22_enough_rows (leaf : ℕ) (tree : TreeIndices X K) (ht : TreeContract tree) {n : ℕ} [NeZero n] (d : Data n X K)
    (hw : ∀ t, 0 < d.weights t) (h : size + mrPadding n leaf ≤ partRows n leaf) (q) :
    PosCount (partData leaf tree d q).weights size := by
  obtain ⟨F, hF, hbij⟩ := ht (n + mrPadding n leaf) (nLeaves n leaf) (partRows n leaf) (d.pad (mrPadding n leaf))
    (add_mrPadding n leaf)
  have hwt : ∀ t, (partData leaf tree d q).weights t = (d.pad (mrPadding n leaf)).weights (F q t) := by
    intro t
    simp only [partData, Data.getItem]
    rw [hF, gatherIdx_coe]
  unfold PosCount
  have hc : (Finset.univ.filter (fun t => ¬ 0 < (partData leaf tree d q).weights t)).card ≤ mrPadding n leaf := by
    have : (Finset.univ.filter (fun t => ¬ 0 < (partData leaf tree d q).weights t)).card
        ≤ (Finset.range (mrPadding n leaf)).card := by
      have hge : ∀ t, ¬ 0 < (partData leaf tree d q).weights t → n ≤ (F q t : ℕ) := by
        intro t hnot
        by_contra hlt
        rw [hwt, (pad_data d _ (not_le.1 hlt)).2] at hnot
        exact hnot (hw _)
      refine Finset.card_le_card_of_injOn (fun t => (F q t : ℕ) - n) ?_ ?_
      · intro t htm
        have := hge t (by simpa using htm)
        have h2 := (F q t).2
        simp only [Finset.coe_range, Set.mem_Iio]
        omega
      · intro a ha b hb hab
        have h1 := hge a (by simpa using ha)
        have h2 := hge b (by simpa using hb)
        have h3 : F q a = F q b := Fin.ext (by simp only at hab; omega)
        exact (Prod.ext_iff.1 (hbij.1 (a₁ := (q, a)) (a₂ := (q, b)) h3)).2
    simpa using this
  have hsum := Finset.card_filter_add_card_filter_not (s := (Finset.univ : Finset (Fin (partRows n leaf))))
    (fun t => 0 < (partData leaf tree d q).weights t)
  rw [Finset.card_univ, Fintype.card_fin] at hsum
  omega

end Run

end Coreax
