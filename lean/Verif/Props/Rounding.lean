import Verif.Lemmas.Rounding
import Verif.Props.Metrics
import Mathlib.Data.Int.Log

/-!
# Rounding errors of blocked means and of the MMD

The numbers are real numbers, the operations rounded (`Spec.Rounding u`), sums in any order and grouping. The exact values are
those of the weighted averages of the specification.
-/

set_option linter.unusedSectionVars false

namespace Coreax

open Spec

namespace Round

variable {X : Type*} [Zero X] {u : ℝ} {o : FloatOps ℝ}

theorem sum_near (hu0 : 0 ≤ u) (hu : u < 1) (h : Rounding u o) {n p : ℕ} (hn : 0 < n) (f f' : Fin n → ℝ) (hf : ∀ i, 0 ≤ f i)
    (hff : ∀ i, Near u p (f i) (f' i)) : Near u (p + (n - 1)) (∑ i, f i) (o.sum f') := by
  obtain ⟨m, rfl⟩ : ∃ m, n = m + 1 := ⟨n - 1, by omega⟩
  have h2 := (RSum.near hu0 hu (h.sum f') (by
    intro x hx
    obtain ⟨i, rfl⟩ := List.mem_ofFn.1 hx
    exact Near.nonneg hu (hf i) (hff i))).2
  rw [List.length_ofFn, List.sum_ofFn] at h2
  exact Near.trans hu (Near.sum Finset.univ _ _ fun i _ => hff i) h2

theorem matvec_near (hu0 : 0 ≤ u) (hu : u < 1) (h : Rounding u o) {a b p q : ℕ} (hb : 0 < b) (M M' : Fin a → Fin b → ℝ) (v v' : Fin b → ℝ)
    (hM : ∀ i j, 0 ≤ M i j) (hv : ∀ j, 0 ≤ v j) (hMM : ∀ i j, Near u p (M i j) (M' i j)) (hvv : ∀ j, Near u q (v j) (v' j)) (i : Fin a) :
    Near u (p + q + b) (∑ j, M i j * v j) (o.matvec M' v' i) := by
  obtain ⟨m, rfl⟩ : ∃ m, b = m + 1 := ⟨b - 1, by omega⟩
  obtain ⟨prod, h1, h2⟩ := h.matvec M' v' i
  exact near_dot hu0 hu hb (hM i) hv (hMM i) hvv h1 h2

theorem dot_near (hu0 : 0 ≤ u) (hu : u < 1) (h : Rounding u o) {n p q : ℕ} (hn : 0 < n) (f f' g g' : Fin n → ℝ)
    (hf : ∀ j, 0 ≤ f j) (hg : ∀ j, 0 ≤ g j) (hff : ∀ j, Near u p (f j) (f' j)) (hgg : ∀ j, Near u q (g j) (g' j)) :
    Near u (p + q + n) (∑ j, f j * g j) (o.dot f' g') := by
  obtain ⟨m, rfl⟩ : ∃ m, n = m + 1 := ⟨n - 1, by omega⟩
  obtain ⟨prod, h1, h2⟩ := h.dot f' g'
  exact near_dot hu0 hu hn hf hg hff hgg h1 h2

/-- Blocks with the same rows, and weights equal up to `p` roundings. -/
def BlockNear (u : ℝ) (p : ℕ) {B : ℕ} (xb xb' : Fin B → X × ℝ) : Prop :=
  ∀ r, (xb' r).1 = (xb r).1 ∧ 0 ≤ (xb r).2 ∧ Near u p (xb r).2 (xb' r).2

theorem normalize_near (hu0 : 0 ≤ u) (hu : u < 1) (h : Rounding u o) (big : ℝ) {n : ℕ} (d : Data n X ℝ) (hw : ∀ i, 0 ≤ d.weights i)
    (hW : 0 < ∑ i, d.weights i) (i : Fin n) :
    0 ≤ (d.normalizePZ big).weights i ∧ Near u n ((d.normalizePZ big).weights i) ((flNormalize o d).weights i) := by
  have hn : 0 < n := Fin.pos i
  have e : (d.normalizePZ big).weights i = d.weights i / ∑ j, d.weights j := normWeightsPZ_of_sum_ne big hW.ne' i
  rw [e]
  have h0 := div_nonneg (hw i) hW.le
  refine ⟨h0, ?_⟩
  have h1 := sum_near hu0 hu h hn d.weights d.weights hw (fun j => Near.refl u _)
  have h2 := Near.div hu (hw i) hW (Near.refl u (d.weights i)) h1
  have h3 := Near.round_after hu0 hu h0 h2 (h.div _ _ (Near.pos hu hW h1).ne')
  rwa [show 0 + (0 + (n - 1)) + 1 = n by omega] at h3

theorem blocks_near (hu0 : 0 ≤ u) (hu : u < 1) (h : Rounding u o) (big : ℝ) {n : ℕ} (d : Data n X ℝ) (hw : ∀ i, 0 ≤ d.weights i)
    (hW : 0 < ∑ i, d.weights i) (B blk : ℕ) :
    BlockNear u n (fun r : Fin B => paddedRow (d.normalizePZ big) (blk * B + r)) (fun r : Fin B => flPaddedRow o (flNormalize o d) (blk * B + r)) := by
  intro r
  simp only [paddedRow, flPaddedRow]
  split_ifs with hr
  · exact ⟨rfl, normalize_near hu0 hu h big d hw hW ⟨_, hr⟩⟩
  · refine ⟨rfl, le_rfl, ?_⟩
    change Near u n 0 o.zero
    rw [h.zero]
    simp [Near]

theorem forall₂_map_range {α β : Type*} {R : α → β → Prop} (f : ℕ → α) (g : ℕ → β) (h : ∀ b, R (f b) (g b)) (N : ℕ) :
    List.Forall₂ R ((List.range N).map f) ((List.range N).map g) := by
  rw [List.forall₂_map_left_iff, List.forall₂_map_right_iff]
  exact List.forall₂_same.2 fun b _ => h b

theorem flBlockConvert_of_pos {n : ℕ} (hn : 0 < n) (d : Data n X ℝ) (b : Option ℤ) :
    flBlockConvert o d b = .ok ⟨effBlock n b,
      (List.range (numBlocks n (effBlock n b))).map (fun blk r => flPaddedRow o (flNormalize o d) (blk * effBlock n b + r))⟩ := by
  have : effBlock n b ≠ 0 := fun h => hn.ne' (effBlock_eq_zero.1 h)
  simp [flBlockConvert, this]

theorem column_near (hu0 : 0 ≤ u) (hu : u < 1) (h : Rounding u o) (k k' : X → X → ℝ) (q : ℕ) (hk0 : ∀ a b, 0 ≤ k a b)
    (hk : ∀ a b, Near u q (k a b) (k' a b)) {m Bx By : ℕ} (hBy : 0 < By) {xb xb' : Fin Bx → X × ℝ} (hx : ∀ r, (xb' r).1 = (xb r).1)
    {yb yb' : Fin By → X × ℝ} (hy : BlockNear u m yb yb') (r : Fin Bx) :
    0 ≤ colOf k xb yb r ∧ Near u (q + m + By) (colOf k xb yb r) (o.matvec (fun r c => k' (xb' r).1 (yb' c).1) (fun c => (yb' c).2) r) := by
  refine ⟨Finset.sum_nonneg fun c _ => mul_nonneg (hk0 _ _) (hy c).2.1, ?_⟩
  exact matvec_near hu0 hu h hBy (fun r c => k (xb r).1 (yb c).1) _ (fun c => (yb c).2) _ (fun i j => hk0 _ _) (fun j => (hy j).2.1)
    (fun i j => by rw [hx i, (hy j).1]; exact hk _ _) (fun j => (hy j).2.2) r

theorem slice_near (hu0 : 0 ≤ u) (hu : u < 1) (h : Rounding u o) (k k' : X → X → ℝ) (q : ℕ) (hk0 : ∀ a b, 0 ≤ k a b)
    (hk : ∀ a b, Near u q (k a b) (k' a b)) {n m Bx By : ℕ} (hBx : 0 < Bx) (hBy : 0 < By) {xb xb' : Fin Bx → X × ℝ} (hx : BlockNear u n xb xb')
    {yb yb' : Fin By → X × ℝ} (hy : BlockNear u m yb yb') (t : ℕ) (s s' : ℝ) (hs : 0 ≤ s) (hss : Near u (n + m + q + Bx + By + t) s s') :
    0 ≤ (sliceSum k xb s yb).1 ∧ Near u (n + m + q + Bx + By + t + 1) (sliceSum k xb s yb).1 (flSliceSum o k' xb' s' yb').1 := by
  have hcol := column_near hu0 hu h k k' q hk0 hk hBy (fun r => (hx r).1) hy (m := m)
  have h0 : 0 ≤ ∑ r, (xb r).2 * colOf k xb yb r := Finset.sum_nonneg fun r _ => mul_nonneg (hx r).2.1 (hcol r).1
  rw [sliceSum_fst]
  refine ⟨add_nonneg hs h0, ?_⟩
  have hdot := dot_near hu0 hu h hBx (fun r => (xb r).2) (fun r => (xb' r).2) (colOf k xb yb) _ (fun r => (hx r).2.1) (fun r => (hcol r).1)
    (fun r => (hx r).2.2) (fun r => (hcol r).2)
  have hdot' := Near.mono hu0 hu h0 hdot (q := n + m + q + Bx + By + t) (by omega)
  exact Near.round_after hu0 hu (add_nonneg hs h0) (Near.add hss hdot') (h.add _ _)

theorem ofFn_get_apply {α β : Type*} (l : List α) (g : α → β) : List.ofFn (fun t : Fin l.length => g (l.get t)) = l.map g := by
  conv_rhs => rw [← List.ofFn_get l]
  rw [List.map_ofFn]
  rfl

theorem flBlock_snd (k' : X → X → ℝ) {Bx By : ℕ} (ys : List (Fin By → X × ℝ)) (acc : ℝ) (xb : Fin Bx → X × ℝ) (i : Fin Bx) :
    ∃ f : Fin ys.length → ℝ, (∀ t, f t = o.matvec (fun r c => k' (xb r).1 (ys.get t c).1) (fun c => (ys.get t c).2) i) ∧
      (flBlockSum o k' ys acc xb).2 i = o.sum f := by
  refine ⟨_, fun t => rfl, ?_⟩
  have e := scan_snd_of_indep (flSliceSum o k' xb)
    (fun yb : Fin By → X × ℝ => o.matvec (fun r c => k' (xb r).1 (yb c).1) (fun c => (yb c).2)) (fun s a => rfl) acc ys
  simp only [flBlockSum]
  generalize hL : (scan (flSliceSum o k' xb) acc ys).2 = L at e
  subst e
  have hlen : (ys.map fun yb : Fin By → X × ℝ => o.matvec (fun r c => k' (xb r).1 (yb c).1) (fun c => (yb c).2)).length = ys.length := List.length_map _
  have key : ∀ (N : ℕ) (hN : N = ys.length) (f : Fin N → ℝ) (g : Fin ys.length → ℝ), (∀ t, f t = g (Fin.cast hN t)) → o.sum f = o.sum g := by
    intro N hN f g hfg
    subst hN
    exact congrArg _ (funext hfg)
  refine key _ hlen _ _ fun t => ?_
  simp

theorem block_snd_near (hu0 : 0 ≤ u) (hu : u < 1) (h : Rounding u o) (k k' : X → X → ℝ) (q : ℕ) (hk0 : ∀ a b, 0 ≤ k a b)
    (hk : ∀ a b, Near u q (k a b) (k' a b)) {m Bx By : ℕ} (hBy : 0 < By) {xb xb' : Fin Bx → X × ℝ} (hx : ∀ r, (xb' r).1 = (xb r).1)
    (f f' : ℕ → Fin By → X × ℝ) (hf : ∀ b, BlockNear u m (f b) (f' b)) (N : ℕ) (hN : 0 < N) (acc acc' : ℝ) (i : Fin Bx) :
    Near u (q + m + By + (N - 1)) ((blockSum k ((List.range N).map f) acc xb).2 i) ((flBlockSum o k' ((List.range N).map f') acc' xb').2 i) := by
  obtain ⟨g, hg, hsum⟩ := flBlock_snd (o := o) k' ((List.range N).map f') acc' xb' i
  rw [hsum, blockSum_snd]
  have hlen : ((List.range N).map f').length = N := by simp
  have e : (((List.range N).map f).map fun yb => colOf k xb yb i).sum
      = ∑ t : Fin ((List.range N).map f').length, colOf k xb (f t) i := by
    rw [List.map_map]
    have : ∑ t : Fin ((List.range N).map f').length, colOf k xb (f t) i = ∑ t : Fin N, colOf k xb (f t) i := by
      refine Fintype.sum_equiv (finCongr hlen) _ _ fun t => rfl
    rw [this, ← List.sum_ofFn, List.ofFn_eq_map, ← List.map_coe_finRange_eq_range, List.map_map]
    rfl
  rw [e]
  have h1 := sum_near hu0 hu h (n := ((List.range N).map f').length) (p := q + m + By) (by omega) (fun t => colOf k xb (f t) i) g
    (fun t => (column_near hu0 hu h k k' q hk0 hk hBy hx (hf t) i).1) (fun t => by
      rw [hg t]
      have := (column_near hu0 hu h k k' q hk0 hk hBy hx (hf t) i).2
      simpa using this)
  exact Near.mono hu0 hu (Finset.sum_nonneg fun t _ => (column_near hu0 hu h k k' q hk0 hk hBy hx (hf t) i).1) h1 (by omega)

end Round

section

variable {X : Type*} [Zero X] {u : ℝ} {o : FloatOps ℝ}

/-- The number of blocks into which `n` rows are cut. -/
def blockCount (n : ℕ) (b : Option ℤ) : ℕ := numBlocks n (effBlock n b)

/-- C65: rounding errors of the blocked mean. Of non-negative weights and a non-negative kernel, evaluated with at most `q` roundings,
the mean over both axes and every entry of the mean over one axis are exact up to a number of roundings that depends on the
numbers of rows, the block sizes and the numbers of blocks only; in particular the relative error does not depend on the data. -/
theorem C65_mean (hu0 : 0 ≤ u) (hu : u < 1) (ho : Rounding u o) (k k' : X → X → ℝ) (q : ℕ) (hk0 : ∀ a b, 0 ≤ k a b)
    (hk : ∀ a b, Near u q (k a b) (k' a b)) {n m : ℕ} (x : Data n X ℝ) (y : Data m X ℝ)
    (hx0 : ∀ i, 0 ≤ x.weights i) (hx : 0 < ∑ i, x.weights i) (hy0 : ∀ i, 0 ≤ y.weights i) (hy : 0 < ∑ i, y.weights i) (bx bY : Option ℤ) :
    ∃ s l, flColumnMean o k' x y bx bY = .ok (s, l) ∧
      Near u (n + m + q + effBlock n bx + effBlock m bY + blockCount n bx * blockCount m bY)
        (avg x.weights fun i => avg y.weights fun j => k (x.data i) (y.data j)) s ∧
      ∃ hl : l.length = n, ∀ i : Fin n,
        Near u (q + m + effBlock m bY + (blockCount m bY - 1)) (avg y.weights fun j => k (x.data i) (y.data j)) (l.get (i.cast hl.symm)) := by
  have hn : 0 < n := by
    rcases Nat.eq_zero_or_pos n with h | h
    · subst h; simp at hx
    · exact h
  have hm : 0 < m := by
    rcases Nat.eq_zero_or_pos m with h | h
    · subst h; simp at hy
    · exact h
  have hBx : 0 < effBlock n bx := Nat.pos_of_ne_zero (fun h => hn.ne' (effBlock_eq_zero.1 h))
  have hBy : 0 < effBlock m bY := Nat.pos_of_ne_zero (fun h => hm.ne' (effBlock_eq_zero.1 h))
  have hNy : 0 < numBlocks m (effBlock m bY) := by
    have := le_numBlocks_mul m _ hBy
    rcases Nat.eq_zero_or_pos (numBlocks m (effBlock m bY)) with h | h
    · rw [h] at this; omega
    · exact h
  have hex := columnMean_eq 0 k hn hm x y bx bY
  unfold columnMean at hex
  rw [blockDataConvert_of_pos 0 hn, blockDataConvert_of_pos 0 hm] at hex
  simp only [Except.ok.injEq, Prod.mk.injEq] at hex
  obtain ⟨hex1, hex2⟩ := hex
  set Bx := effBlock n bx with hBxdef
  set By := effBlock m bY with hBydef
  set fx := fun blk (r : Fin Bx) => paddedRow (x.normalizePZ 0) (blk * Bx + r) with hfx
  set fy := fun blk (r : Fin By) => paddedRow (y.normalizePZ 0) (blk * By + r) with hfy
  set gx := fun blk (r : Fin Bx) => flPaddedRow o (flNormalize o x) (blk * Bx + r) with hgx
  set gy := fun blk (r : Fin By) => flPaddedRow o (flNormalize o y) (blk * By + r) with hgy
  have hRx : ∀ b, Round.BlockNear u n (fx b) (gx b) := fun b => Round.blocks_near hu0 hu ho 0 x hx0 hx Bx b
  have hRy : ∀ b, Round.BlockNear u m (fy b) (gy b) := fun b => Round.blocks_near hu0 hu ho 0 y hy0 hy By b
  refine ⟨(scan (flBlockSum o k' ((List.range (numBlocks m By)).map gy)) o.zero ((List.range (numBlocks n Bx)).map gx)).1,
    (((scan (flBlockSum o k' ((List.range (numBlocks m By)).map gy)) o.zero ((List.range (numBlocks n Bx)).map gx)).2.map List.ofFn).flatten).take n,
    ?_, ?_, ?_⟩
  · unfold flColumnMean
    rw [Round.flBlockConvert_of_pos hn, Round.flBlockConvert_of_pos hm]
  · have hinner : ∀ (t : ℕ) s s' (xb xb' : Fin Bx → X × ℝ), 0 ≤ s → Near u (n + m + q + Bx + By + t) s s' → Round.BlockNear u n xb xb' →
        0 ≤ (blockSum k ((List.range (numBlocks m By)).map fy) s xb).1 ∧ Near u (n + m + q + Bx + By + t + numBlocks m By)
          (blockSum k ((List.range (numBlocks m By)).map fy) s xb).1 (flBlockSum o k' ((List.range (numBlocks m By)).map gy) s' xb').1 := by
      intro t s s' xb xb' hs hss hxb
      have := scan_near (u := u) (sliceSum k xb) (flSliceSum o k' xb') (n + m + q + Bx + By) 1
        (fun t s s' a a' h1 h2 h3 => Round.slice_near hu0 hu ho k k' q hk0 hk hBx hBy hxb h3 t s s' h1 h2)
        (Round.forall₂_map_range fy gy hRy (numBlocks m By)) t s s' hs hss
      simpa [blockSum, flBlockSum] using this
    have h := scan_near (u := u) (blockSum k ((List.range (numBlocks m By)).map fy)) (flBlockSum o k' ((List.range (numBlocks m By)).map gy))
      (n + m + q + Bx + By) (numBlocks m By) (fun t s s' a a' h1 h2 h3 => hinner t s s' a a' h1 h2 h3)
      (Round.forall₂_map_range fx gx hRx (numBlocks n Bx)) 0 0 o.zero le_rfl (by rw [ho.zero]; simp [Near])
    have h2 := h.2
    rw [hex1, List.length_map, List.length_range] at h2
    have e : ∑ i, normWeightsPZ 0 x.weights i * ∑ j, k (x.data i) (y.data j) * normWeightsPZ 0 y.weights j
        = avg x.weights fun i => avg y.weights fun j => k (x.data i) (y.data j) := by
      simp only [normWeightsPZ_sum_mul 0 hy.ne']
      rw [← normWeightsPZ_sum_mul 0 hx.ne']
      exact Finset.sum_congr rfl fun i _ => mul_comm _ _
    rw [e] at h2
    rw [show n + m + q + Bx + By + blockCount n bx * blockCount m bY = n + m + q + Bx + By + 0 + numBlocks m By * numBlocks n Bx by
      simp only [blockCount, ← hBxdef, ← hBydef]; ring]
    exact h2
  · have hF : List.Forall₂ (fun a c : Fin Bx → ℝ => ∀ r, Near u (q + m + By + (numBlocks m By - 1)) (a r) (c r))
        (scan (blockSum k ((List.range (numBlocks m By)).map fy)) 0 ((List.range (numBlocks n Bx)).map fx)).2
        (scan (flBlockSum o k' ((List.range (numBlocks m By)).map gy)) o.zero ((List.range (numBlocks n Bx)).map gx)).2 := by
      rw [scan_snd_of_indep _ (fun xb => (blockSum k ((List.range (numBlocks m By)).map fy) 0 xb).2)
          (fun s a => by funext i; rw [blockSum_snd, blockSum_snd]),
        scan_snd_of_indep _ (fun xb => (flBlockSum o k' ((List.range (numBlocks m By)).map gy) 0 xb).2) (fun s a => by
          funext i
          obtain ⟨f, hf, e1⟩ := Round.flBlock_snd (o := o) k' ((List.range (numBlocks m By)).map gy) s a i
          obtain ⟨f', hf', e2⟩ := Round.flBlock_snd (o := o) k' ((List.range (numBlocks m By)).map gy) 0 a i
          rw [e1, e2]
          exact congrArg _ (funext fun t => (hf t).trans (hf' t).symm))]
      rw [List.map_map, List.map_map]
      refine Round.forall₂_map_range _ _ (fun b i => ?_) _
      exact Round.block_snd_near hu0 hu ho k k' q hk0 hk hBy (fun r => (hRx b r).1) fy gy hRy _ hNy 0 0 i
    have hF2 : List.Forall₂ (List.Forall₂ (Near u (q + m + By + (numBlocks m By - 1))))
        ((scan (blockSum k ((List.range (numBlocks m By)).map fy)) 0 ((List.range (numBlocks n Bx)).map fx)).2.map List.ofFn)
        ((scan (flBlockSum o k' ((List.range (numBlocks m By)).map gy)) o.zero ((List.range (numBlocks n Bx)).map gx)).2.map List.ofFn) := by
      rw [List.forall₂_map_left_iff, List.forall₂_map_right_iff]
      refine List.Forall₂.imp (fun a c hac => ?_) hF
      rw [List.forall₂_iff_get]
      exact ⟨by simp, fun i h1 h2 => by simpa using hac ⟨i, by simpa using h1⟩⟩
    have hF3 := List.forall₂_take n (List.rel_flatten hF2)
    rw [hex2] at hF3
    have hlen := hF3.length_eq
    rw [List.length_ofFn] at hlen
    refine ⟨hlen.symm, fun i => ?_⟩
    have := (List.forall₂_iff_get.1 hF3).2 i (by simp) (by rw [← hlen]; exact i.2)
    simp only [List.get_ofFn, normWeightsPZ_sum_mul 0 hy.ne'] at this
    exact this

/-- The number of roundings in a mean over both axes. -/
def meanRoundings (q n m : ℕ) (bx bY : Option ℤ) : ℕ := n + m + q + effBlock n bx + effBlock m bY + blockCount n bx * blockCount m bY

/-- C65: two block sizes give the same mean up to the roundings of both. -/
theorem C65_block_sizes (hu0 : 0 ≤ u) (hu : u < 1) (ho : Rounding u o) (k k' : X → X → ℝ) (q : ℕ) (hk0 : ∀ a b, 0 ≤ k a b)
    (hk : ∀ a b, Near u q (k a b) (k' a b)) {n m : ℕ} (x : Data n X ℝ) (y : Data m X ℝ)
    (hx0 : ∀ i, 0 ≤ x.weights i) (hx : 0 < ∑ i, x.weights i) (hy0 : ∀ i, 0 ≤ y.weights i) (hy : 0 < ∑ i, y.weights i) (bx bY cx cY : Option ℤ) :
    ∃ s l s' l', flColumnMean o k' x y bx bY = .ok (s, l) ∧ flColumnMean o k' x y cx cY = .ok (s', l') ∧
      Near u (meanRoundings q n m bx bY + meanRoundings q n m cx cY) s s' := by
  obtain ⟨s, l, h1, h2, -⟩ := C65_mean hu0 hu ho k k' q hk0 hk x y hx0 hx hy0 hy bx bY
  obtain ⟨s', l', h1', h2', -⟩ := C65_mean hu0 hu ho k k' q hk0 hk x y hx0 hx hy0 hy cx cY
  exact ⟨s, l, s', l', h1, h1', Near.trans hu h2.symm h2'⟩

/-- The largest number of roundings in the three means of the MMD. -/
def mmdRoundings (q n m : ℕ) (a b : Option ℤ) : ℕ :=
  max (max (meanRoundings q n n a a) (meanRoundings q m m b b)) (meanRoundings q n m a b)

theorem Round.sqrt_add_le {a b : ℝ} (ha : 0 ≤ a) (hb : 0 ≤ b) : Real.sqrt (a + b) ≤ Real.sqrt a + Real.sqrt b := by
  rw [Real.sqrt_le_left (by positivity), add_sq, Real.sq_sqrt ha, Real.sq_sqrt hb]
  have : 0 ≤ 2 * Real.sqrt a * Real.sqrt b := by positivity
  linarith

/-- C65: the MMD computed with rounding differs from the exact one by a relative error of `u` and by an absolute error of the
square root of `4R((1-u)^-(P+2) - 1)`, where `P` depends on the numbers of rows and on the block sizes only. -/
theorem C65_mmd (hu0 : 0 ≤ u) (hu : u < 1) (ho : Rounding u o) (big : ℝ) (k k' : X → X → ℝ) (q : ℕ) (hk0 : ∀ a b, 0 ≤ k a b) (R : ℝ)
    (hR : ∀ a b, k a b ≤ R) (hk : ∀ a b, Near u q (k a b) (k' a b)) {n m : ℕ} (x : Data n X ℝ) (y : Data m X ℝ)
    (hx0 : ∀ i, 0 ≤ x.weights i) (hx : 0 < ∑ i, x.weights i) (hy0 : ∀ i, 0 ≤ y.weights i) (hy : 0 < ∑ i, y.weights i)
    (bs bs' : PyTree (Option ℤ)) (a b : Option ℤ) (hab : treeLeavesRepeat bs 2 = [a, b]) (hbs' : ValidBlock bs') :
    ∃ r e, flMMD o k' x y bs = .ok r ∧ mmdCompute big k x y bs' = .ok e ∧
      |r - e| ≤ u * e + (1 + u) * Real.sqrt (4 * R * (1 / (1 - u) ^ (mmdRoundings q n m a b + 2) - 1)) := by
  have hn : 0 < n := by
    rcases Nat.eq_zero_or_pos n with h | h
    · subst h; simp at hx
    · exact h
  have hm : 0 < m := by
    rcases Nat.eq_zero_or_pos m with h | h
    · subst h; simp at hy
    · exact h
  obtain ⟨sxx, lxx, e1, h1, -⟩ := C65_mean hu0 hu ho k k' q hk0 hk x x hx0 hx hx0 hx a a
  obtain ⟨syy, lyy, e2, h2, -⟩ := C65_mean hu0 hu ho k k' q hk0 hk y y hy0 hy hy0 hy b b
  obtain ⟨sxy, lxy, e3, h3, -⟩ := C65_mean hu0 hu ho k k' q hk0 hk x y hx0 hx hy0 hy a b
  set P := mmdRoundings q n m a b with hP
  set xx := avg x.weights fun i => avg x.weights fun j => k (x.data i) (x.data j) with hxx
  set yy := avg y.weights fun i => avg y.weights fun j => k (y.data i) (y.data j) with hyy
  set xy := avg x.weights fun i => avg y.weights fun j => k (x.data i) (y.data j) with hxy
  have avg_nonneg : ∀ {N : ℕ} (w f : Fin N → ℝ), (∀ i, 0 ≤ w i) → 0 < ∑ i, w i → (∀ i, 0 ≤ f i) → 0 ≤ avg w f := by
    intro N w f hw hW hf
    exact div_nonneg (Finset.sum_nonneg fun i _ => mul_nonneg (hw i) (hf i)) hW.le
  have avg_le : ∀ {N : ℕ} (w f : Fin N → ℝ), (∀ i, 0 ≤ w i) → 0 < ∑ i, w i → (∀ i, f i ≤ R) → avg w f ≤ R := by
    intro N w f hw hW hf
    rw [avg, div_le_iff₀ hW, Finset.mul_sum]
    exact Finset.sum_le_sum fun i _ => by rw [mul_comm R]; exact mul_le_mul_of_nonneg_left (hf i) (hw i)
  have hxx0 : 0 ≤ xx := avg_nonneg _ _ hx0 hx fun i => avg_nonneg _ _ hx0 hx fun j => hk0 _ _
  have hyy0 : 0 ≤ yy := avg_nonneg _ _ hy0 hy fun i => avg_nonneg _ _ hy0 hy fun j => hk0 _ _
  have hxy0 : 0 ≤ xy := avg_nonneg _ _ hx0 hx fun i => avg_nonneg _ _ hy0 hy fun j => hk0 _ _
  have hxxR : xx ≤ R := avg_le _ _ hx0 hx fun i => avg_le _ _ hx0 hx fun j => hR _ _
  have hyyR : yy ≤ R := avg_le _ _ hy0 hy fun i => avg_le _ _ hy0 hy fun j => hR _ _
  have hxyR : xy ≤ R := avg_le _ _ hx0 hx fun i => avg_le _ _ hy0 hy fun j => hR _ _
  have n1 : Near u P xx sxx := Near.mono hu0 hu hxx0 h1 (le_trans (le_max_left _ _) (le_max_left _ _))
  have n2 : Near u P yy syy := Near.mono hu0 hu hyy0 h2 (le_trans (le_max_right _ _) (le_max_left _ _))
  have n3 : Near u P xy sxy := Near.mono hu0 hu hxy0 h3 (le_max_right _ _)
  have n4 : Near u (P + 1) (xx + yy) (o.add sxx syy) := Near.round_after hu0 hu (add_nonneg hxx0 hyy0) (Near.add n1 n2) (ho.add _ _)
  have n5 : Near u (P + 1) (2 * xy) (o.mul o.two sxy) := by
    have := Near.round_after hu0 hu (by positivity) (Near.mul hu (by norm_num : (0 : ℝ) ≤ 2) hxy0 (Near.refl u 2) n3) (ho.mul _ _)
    rw [ho.two]
    rwa [Nat.zero_add] at this
  set c := o.add sxx syy
  set d := o.mul o.two sxy
  have hβ : 0 < (1 - u) ^ (P + 1) := pow_pos (by linarith) _
  have hβ1 : (1 - u) ^ (P + 1) ≤ 1 := pow_le_one₀ (by linarith) (by linarith)
  set β := 1 / (1 - u) ^ (P + 1) with hβd
  have hβ2 : 1 ≤ β := by rw [hβd, le_div_iff₀ hβ]; linarith
  have a4 := Near.abs_le hu0 hu (add_nonneg hxx0 hyy0) n4
  have a5 := Near.abs_le hu0 hu (by positivity : (0 : ℝ) ≤ 2 * xy) n5
  have a6 := ho.sub c d
  set E := 4 * R * (1 / (1 - u) ^ (P + 2) - 1) with hE
  have hβ3 : β * (1 + u) ≤ 1 / (1 - u) ^ (P + 2) := by
    rw [pow_succ (1 - u) (P + 1), ← div_div, ← hβd, le_div_iff₀ (by linarith)]
    nlinarith [mul_nonneg (le_trans zero_le_one hβ2) (sq_nonneg u)]
  have hR0 : 0 ≤ R := hxx0.trans hxxR
  have hD : |o.sub c d - (xx + yy - 2 * xy)| ≤ E := by
    have b1 : |c - d| ≤ |xx + yy - 2 * xy| + (β - 1) * (xx + yy + 2 * xy) := by
      have : c - d = (xx + yy - 2 * xy) + ((c - (xx + yy)) - (d - 2 * xy)) := by ring
      rw [this]
      refine (abs_add_le _ _).trans (add_le_add le_rfl ((abs_sub _ _).trans ?_))
      linarith
    have b2 : |xx + yy - 2 * xy| ≤ xx + yy + 2 * xy := by
      rw [abs_le]; constructor <;> linarith
    have b3 : |o.sub c d - (xx + yy - 2 * xy)| ≤ u * |c - d| + (β - 1) * (xx + yy + 2 * xy) := by
      have : o.sub c d - (xx + yy - 2 * xy) = (o.sub c d - (c - d)) + ((c - (xx + yy)) - (d - 2 * xy)) := by ring
      rw [this]
      refine (abs_add_le _ _).trans (add_le_add a6 ((abs_sub _ _).trans ?_))
      linarith
    have b4 : u * |c - d| ≤ u * (β * (xx + yy + 2 * xy)) := mul_le_mul_of_nonneg_left (by linarith) hu0
    have b5 : 0 ≤ xx + yy + 2 * xy := by positivity
    have b6 : (β * (1 + u) - 1) * (xx + yy + 2 * xy) ≤ (1 / (1 - u) ^ (P + 2) - 1) * (4 * R) := by
      refine mul_le_mul (by linarith) (by linarith) b5 ?_
      have : 0 ≤ u * β := by positivity
      nlinarith
    calc _ ≤ u * (β * (xx + yy + 2 * xy)) + (β - 1) * (xx + yy + 2 * xy) := by linarith
      _ = (β * (1 + u) - 1) * (xx + yy + 2 * xy) := by ring
      _ ≤ E := by rw [hE]; linarith
  have hE0 : 0 ≤ E := (abs_nonneg _).trans hD
  refine ⟨o.root (o.sub c d), _, ?_, C07_compute big k hn hm x y hx.ne' hy.ne' bs' hbs', ?_⟩
  · unfold flMMD
    rw [hab]
    simp only [e1, e2, e3]
    rfl
  · have hsq : mmdSq k x.data x.weights y.data y.weights = xx + yy - 2 * xy := by
      unfold mmdSq
      rw [← hxx, ← hyy, ← hxy]
      ring
    rw [hsq]
    set D := xx + yy - 2 * xy
    set s := o.sub c d
    rw [abs_le] at hD
    have r1 : Real.sqrt (max 0 s) ≤ Real.sqrt (max 0 D) + Real.sqrt E := by
      refine (Real.sqrt_le_sqrt ?_).trans (Round.sqrt_add_le (le_max_left 0 D) hE0)
      refine max_le (add_nonneg (le_max_left _ _) hE0) ?_
      have := le_max_right 0 D
      linarith [hD.2]
    have r2 : Real.sqrt (max 0 D) ≤ Real.sqrt (max 0 s) + Real.sqrt E := by
      refine (Real.sqrt_le_sqrt ?_).trans (Round.sqrt_add_le (le_max_left 0 s) hE0)
      refine max_le (add_nonneg (le_max_left _ _) hE0) ?_
      have := le_max_right 0 s
      linarith [hD.1]
    have r3 := ho.root s
    have r4 : u * Real.sqrt (max 0 s) ≤ u * (Real.sqrt (max 0 D) + Real.sqrt E) := mul_le_mul_of_nonneg_left r1 hu0
    rw [abs_le] at r3 ⊢
    constructor <;> nlinarith [r3.1, r3.2]

/-- C65: of two data sets with the same distribution (every MMD is exactly zero) the computed MMD is at most the square root of the error of the means. -/
theorem C65_equal (hu0 : 0 ≤ u) (hu : u < 1) (ho : Rounding u o) (k k' : X → X → ℝ) (q : ℕ) (hk0 : ∀ a b, 0 ≤ k a b) (R : ℝ)
    (hR : ∀ a b, k a b ≤ R) (hk : ∀ a b, Near u q (k a b) (k' a b)) {n m : ℕ} (x : Data n X ℝ) (y : Data m X ℝ)
    (hx0 : ∀ i, 0 ≤ x.weights i) (hx : 0 < ∑ i, x.weights i) (hy0 : ∀ i, 0 ≤ y.weights i) (hy : 0 < ∑ i, y.weights i)
    (hxy : ∀ g : X → ℝ, avg x.weights (fun i => g (x.data i)) = avg y.weights (fun i => g (y.data i)))
    (bs : PyTree (Option ℤ)) (a b : Option ℤ) (hab : treeLeavesRepeat bs 2 = [a, b]) :
    ∃ r, flMMD o k' x y bs = .ok r ∧ |r| ≤ (1 + u) * Real.sqrt (4 * R * (1 / (1 - u) ^ (mmdRoundings q n m a b + 2) - 1)) := by
  have hv : ValidBlock (.leaf none) := by left; decide
  obtain ⟨r, e, h1, h2, h3⟩ := C65_mmd hu0 hu ho 0 k k' q hk0 R hR hk x y hx0 hx hy0 hy bs (.leaf none) a b hab hv
  have hn : 0 < n := by
    rcases Nat.eq_zero_or_pos n with h | h
    · subst h; simp at hx
    · exact h
  have hm : 0 < m := by
    rcases Nat.eq_zero_or_pos m with h | h
    · subst h; simp at hy
    · exact h
  rw [C07_compute 0 k hn hm x y hx.ne' hy.ne' _ hv] at h2
  have hz : mmdSq k x.data x.weights y.data y.weights = 0 := by
    unfold mmdSq
    have i1 : ∀ a, avg x.weights (fun j => k a (x.data j)) = avg y.weights fun j => k a (y.data j) := fun a => hxy (fun z => k a z)
    simp only [i1]
    rw [hxy (fun a => avg y.weights fun j => k a (y.data j))]
    ring
  rw [hz, max_self, Real.sqrt_zero] at h2
  have : e = 0 := (Except.ok.inj h2).symm
  subst this
  refine ⟨r, h1, ?_⟩
  simpa using h3

end

/-- C65: the MMD of a data set to itself is exactly zero in every deterministic arithmetic in which `a + a = 2 * a`, `a - a = 0` and the root of
zero is zero, as in binary floating point; whatever the order of summation, the rounding, the kernel and the weights, if one block size is given. (A block size
given as a pair of different numbers makes the three means different computations.) -/
theorem C65_self {X F : Type*} [Zero X] (o : FloatOps F) (hdouble : ∀ a, o.add a a = o.mul o.two a) (hsub : ∀ a, o.sub a a = o.zero)
    (hroot : o.root o.zero = o.zero) (k : X → X → F) {n : ℕ} (hn : 0 < n) (x : Data n X F) (bs : PyTree (Option ℤ)) (b : Option ℤ)
    (hb : treeLeavesRepeat bs 2 = [b, b]) : flMMD o k x x bs = .ok o.zero := by
  have hB : effBlock n b ≠ 0 := fun h => hn.ne' (effBlock_eq_zero.1 h)
  have : ∃ r, flColumnMean o k x x b b = .ok r := by
    unfold flColumnMean flBlockConvert
    rw [if_neg hB]
    exact ⟨_, rfl⟩
  obtain ⟨r, hr⟩ := this
  unfold flMMD
  rw [hb]
  simp only [hr, hdouble, hsub, hroot]

/-! ### Arithmetics -/

/-- Operations that round each exact result with `rd`, sums from left to right. -/
noncomputable def roundedOps (rd : ℝ → ℝ) : FloatOps ℝ where
  zero := 0
  two := 2
  add a b := rd (a + b)
  sub a b := rd (a - b)
  mul a b := rd (a * b)
  div a b := rd (a / b)
  sum f := (List.ofFn f).tail.foldl (fun s a => rd (s + a)) ((List.ofFn f).headD 0)
  matvec M v i := (List.ofFn fun j => rd (M i j * v j)).tail.foldl (fun s a => rd (s + a)) ((List.ofFn fun j => rd (M i j * v j)).headD 0)
  dot f g := (List.ofFn fun j => rd (f j * g j)).tail.foldl (fun s a => rd (s + a)) ((List.ofFn fun j => rd (f j * g j)).headD 0)
  root a := rd (Real.sqrt (max 0 a))

theorem Round.rsum_foldl {u : ℝ} {rd : ℝ → ℝ} (h : ∀ a, |rd a - a| ≤ u * |a|) (l r : List ℝ) (s : ℝ) (hs : RSum u r s) :
    RSum u (r ++ l) (l.foldl (fun s a => rd (s + a)) s) := by
  induction l generalizing r s with
  | nil => simpa using hs
  | cons a l ih =>
    have := ih (r ++ [a]) (rd (s + a)) (RSum.add hs (RSum.one a) (h _))
    simpa using this

theorem Round.rsum_ofFn {u : ℝ} {rd : ℝ → ℝ} (h : ∀ a, |rd a - a| ≤ u * |a|) {n : ℕ} (f : Fin (n + 1) → ℝ) :
    RSum u (List.ofFn f) ((List.ofFn f).tail.foldl (fun s a => rd (s + a)) ((List.ofFn f).headD 0)) := by
  rw [List.ofFn_succ]
  exact Round.rsum_foldl h _ [f 0] (f 0) (RSum.one _)

/-- Every rounding function of relative error `u` gives operations meeting the contract. -/
theorem roundedOps_rounding {u : ℝ} {rd : ℝ → ℝ} (h : ∀ a, |rd a - a| ≤ u * |a|) : Rounding u (roundedOps rd) where
  zero := rfl
  two := rfl
  add _ _ := h _
  sub _ _ := h _
  mul _ _ := h _
  div _ _ _ := h _
  sum f := Round.rsum_ofFn h f
  matvec M v i := ⟨fun j => rd (M i j * v j), fun _ => h _, Round.rsum_ofFn h _⟩
  dot f g := ⟨fun j => rd (f j * g j), fun _ => h _, Round.rsum_ofFn h _⟩
  root a := by
    have := h (Real.sqrt (max 0 a))
    rwa [abs_of_nonneg (Real.sqrt_nonneg (max 0 a))] at this

/-- Rounding to `p + 1` significant binary digits, exponents unbounded. -/
noncomputable def binaryRound (p : ℕ) (a : ℝ) : ℝ :=
  (round (a * 2 ^ ((p : ℤ) - Int.log 2 |a|)) : ℝ) / 2 ^ ((p : ℤ) - Int.log 2 |a|)

theorem binaryRound_error (p : ℕ) (a : ℝ) : |binaryRound p a - a| ≤ (1 / 2) ^ (p + 1) * |a| := by
  rcases eq_or_ne a 0 with h | h
  · subst h; simp [binaryRound]
  have ha : 0 < |a| := abs_pos.2 h
  set e := Int.log 2 |a| with he
  have h2 : (0 : ℝ) < 2 ^ ((p : ℤ) - e) := by positivity
  have h1 : (2 : ℝ) ^ e ≤ |a| := by exact_mod_cast Int.zpow_log_le_self (by norm_num) ha
  have h3 : |binaryRound p a - a| = |(round (a * 2 ^ ((p : ℤ) - e)) : ℝ) - a * 2 ^ ((p : ℤ) - e)| / 2 ^ ((p : ℤ) - e) := by
    unfold binaryRound
    rw [← he, ← abs_of_pos h2, ← abs_div, sub_div, abs_of_pos h2, mul_div_cancel_right₀ _ h2.ne']
  rw [h3, div_le_iff₀ h2, abs_sub_comm]
  refine (abs_sub_round _).trans ?_
  have h4 : (2 : ℝ) ^ ((p : ℤ) - e) = 2 ^ p / 2 ^ e := by rw [zpow_sub₀ (by norm_num), zpow_natCast]
  have h5 : (0 : ℝ) < 2 ^ e := by positivity
  rw [h4]
  have h6 : (1 / 2 : ℝ) ^ (p + 1) * |a| * (2 ^ p / 2 ^ e) = 1 / 2 * (|a| / 2 ^ e) := by
    rw [pow_succ, one_div, inv_pow]
    field_simp
  rw [h6]
  have : 1 ≤ |a| / 2 ^ e := by rw [le_div_iff₀ h5]; linarith
  linarith

/-! ### Cases -/

/-- Single precision (24 significant digits): the MMD of any data set to itself is exactly zero. -/
example (k : ℝ → ℝ → ℝ) (n : ℕ) (x : Data (n + 1) ℝ ℝ) : flMMD (roundedOps (binaryRound 23)) k x x (.leaf (some 7)) = .ok 0 :=
  C65_self (roundedOps (binaryRound 23)) (fun a => by simp only [roundedOps]; rw [two_mul])
    (fun a => by simp [roundedOps, binaryRound]) (by simp [roundedOps, binaryRound]) k n.succ_pos x _ (some 7) rfl

/-- Single precision, a kernel evaluated with three roundings, three rows against two rows in blocks of two. -/
example (k k' : ℝ → ℝ → ℝ) (hk0 : ∀ a b, 0 ≤ k a b) (hR : ∀ a b, k a b ≤ 1) (hk : ∀ a b, Near ((1 / 2) ^ 24) 3 (k a b) (k' a b)) :
    ∃ r e, flMMD (roundedOps (binaryRound 23)) k' ⟨![1, 2, 4], ![1, 1, 1]⟩ ⟨![1, 3], ![1, 2]⟩ (.leaf (some 2)) = .ok r ∧
      mmdCompute 1000 k ⟨![1, 2, 4], ![1, 1, 1]⟩ ⟨![1, 3], ![1, 2]⟩ (.leaf none) = .ok e ∧
      |r - e| ≤ (1 / 2) ^ 24 * e + (1 + (1 / 2) ^ 24) * Real.sqrt (4 * 1 * (1 / (1 - (1 / 2) ^ 24) ^ (mmdRoundings 3 3 2 (some 2) (some 2) + 2) - 1)) :=
  C65_mmd (by norm_num) (by norm_num) (roundedOps_rounding fun a => binaryRound_error 23 a) 1000 k k' 3 hk0 1 hR hk
    ⟨![1, 2, 4], ![1, 1, 1]⟩ ⟨![1, 3], ![1, 2]⟩ (by intro i; fin_cases i <;> norm_num) (by simp [Fin.sum_univ_three]; norm_num)
    (by intro i; fin_cases i <;> norm_num) (by simp [Fin.sum_univ_two]; norm_num) _ _ (some 2) (some 2) rfl (by left; decide)

example : mmdRoundings 3 3 2 (some 2) (some 2) = 17 := by decide

/-- Exact operations. -/
example (k : ℝ → ℝ → ℝ) (hk0 : ∀ a b, 0 ≤ k a b) (x : Data 2 ℝ ℝ) (hx : ∀ i, x.weights i = 1) :
    ∃ s l, flColumnMean (roundedOps id) k x x none none = .ok (s, l) ∧
      s = avg x.weights fun i => avg x.weights fun j => k (x.data i) (x.data j) := by
  obtain ⟨s, l, h1, h2, -⟩ := C65_mean (u := 0) (o := roundedOps id) le_rfl zero_lt_one (roundedOps_rounding (by simp)) k k 0 hk0 (fun a b => Near.refl 0 _) x x
    (fun i => by rw [hx i]; exact zero_le_one) (by simp [hx]) (fun i => by rw [hx i]; exact zero_le_one) (by simp [hx]) none none
  refine ⟨s, l, h1, ?_⟩
  simp only [Near, sub_zero, one_pow, one_mul] at h2
  exact le_antisymm h2.2 h2.1

/-- C65: the square root in the bound is not an artefact. With a matrix-vector product that is low by the factor `1 - u` for blocks of two (and all
other operations exact) the computed MMD of one point to the same point twice is the square root of `u`. -/
theorem C65_root_of_error (u : ℝ) (hu0 : 0 ≤ u) :
    ∃ o : FloatOps ℝ, Rounding u o ∧
      mmdSq (fun _ _ : ℝ => (1 : ℝ)) (fun _ : Fin 1 => 0) (fun _ => 1) (fun _ : Fin 2 => 0) (fun _ => 1) = 0 ∧
      flMMD o (fun _ _ => 1) (⟨fun _ => 0, fun _ => 1⟩ : Data 1 ℝ ℝ) (⟨fun _ => 0, fun _ => 1⟩ : Data 2 ℝ ℝ) (.leaf none) = .ok (Real.sqrt u) := by
  have hid : Rounding u (roundedOps id) := roundedOps_rounding (fun a => by simpa using mul_nonneg hu0 (abs_nonneg a))
  refine ⟨{ roundedOps id with matvec := fun {a b} M v i => (if b = 2 then (1 - u) else 1) * ∑ j, M i j * v j }, ?_, ?_, ?_⟩
  · refine { hid with matvec := ?_ }
    intro a b M v i
    refine ⟨fun j => (if b + 1 = 2 then (1 - u) else 1) * (M i j * v j), fun j => ?_, ?_⟩
    · split_ifs
      · rw [show (1 - u) * (M i j * v j) - M i j * v j = -(u * (M i j * v j)) by ring, abs_neg, abs_mul, abs_of_nonneg hu0]
      · simpa using mul_nonneg hu0 (abs_nonneg (M i j * v j))
    · have h := hid.sum (fun j : Fin (b + 1) => (if b + 1 = 2 then (1 - u) else 1) * (M i j * v j))
      have e : (roundedOps id).sum (fun j : Fin (b + 1) => (if b + 1 = 2 then (1 - u) else 1) * (M i j * v j))
          = (if b + 1 = 2 then (1 - u) else 1) * ∑ j, M i j * v j := by
        simp only [roundedOps, id]
        rw [Finset.mul_sum, ← List.sum_ofFn, List.ofFn_succ, List.sum_cons, List.tail_cons, List.headD_cons]
        have : ∀ (l : List ℝ) (s : ℝ), l.foldl (fun s a => s + a) s = s + l.sum := by
          intro l
          induction l with
          | nil => simp
          | cons a l ih => intro s; simp [ih, add_assoc]
        exact this _ _
      rw [e] at h
      exact h
  · simp [mmdSq, avg]
    norm_num
  · have e1 : treeLeavesRepeat (PyTree.leaf (none : Option ℤ)) 2 = [none, none] := rfl
    simp only [flMMD, e1, flColumnMean, flBlockConvert, effBlock, numBlocks, flPaddedRow, flNormalize, roundedOps, id]
    simp [scan, List.range_succ]
    simp only [flBlockSum, flSliceSum, scan]
    simp [Fin.sum_univ_two]
    norm_num
    congr 1
    rw [max_eq_right] <;> linarith

/-- Single precision: means with blocks of two and one against whole rows. -/
example := C65_block_sizes (u := (1 / 2) ^ 24) (by norm_num) (by norm_num) (roundedOps_rounding fun a => binaryRound_error 23 a)
    (fun a b : ℝ => (a * b) ^ 2) (fun a b => (a * b) ^ 2) 0 (fun a b => sq_nonneg _) (fun a b => Near.refl _ _) (n := 3) (m := 2) ⟨![1, 2, 4], ![1, 1, 1]⟩ ⟨![1, 3], ![1, 2]⟩
    (by intro i; fin_cases i <;> norm_num) (by simp [Fin.sum_univ_three]; norm_num) (by intro i; fin_cases i <;> norm_num) (by simp [Fin.sum_univ_two]; norm_num)
    (some 2) (some 1) none none

/-- The same distribution written with two rows of weight one and with one row of weight two. -/
example := C65_equal (u := (1 / 2) ^ 24) (by norm_num) (by norm_num) (roundedOps_rounding fun a => binaryRound_error 23 a)
    (fun a b : ℝ => if a = b then (1 : ℝ) else 0) (fun a b => if a = b then 1 else 0) 0 (fun a b => by split_ifs <;> norm_num) 1 (fun a b => by split_ifs <;> norm_num) (fun a b => Near.refl _ _)
    (n := 3) (m := 2) ⟨![1, 2, 1], ![1, 1, 1]⟩ ⟨![1, 2], ![2, 1]⟩
    (by intro i; fin_cases i <;> norm_num) (by simp [Fin.sum_univ_three]; norm_num) (by intro i; fin_cases i <;> norm_num) (by simp [Fin.sum_univ_two]; norm_num)
    (fun g => by simp [avg, Fin.sum_univ_three, Fin.sum_univ_two]; norm_num; ring) (.leaf (some 2)) (some 2) (some 2) rfl

example := C65_root_of_error (1 / 100) (by norm_num)

end Coreax
