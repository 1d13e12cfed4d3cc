import Verif.Lemmas.RoundedSigned
import Verif.Model.RoundedKSD
import Verif.Props.Rounding
import Verif.Props.SteinKernel

/-!
# Rounding errors of means of kernels of either sign, and of the KSD

Stein kernels take both signs, and their mean over a good coreset is small by cancellation. The size against which the rounding errors count is the mean of
a bound `K` of the kernel (for a Stein kernel the sum of the sizes of its four terms).
-/

set_option linter.unusedSectionVars false

namespace Coreax

open Spec

namespace Signed

variable {X : Type*} [Zero X] {u : ℝ} {o : FloatOps ℝ}

theorem column (hu0 : 0 ≤ u) (hu : u < 1) (h : Rounding u o) (K k k' : X → X → ℝ) (q : ℕ)
    (hk : ∀ a b, Within u q (K a b) (k a b) (k' a b)) {m Bx By : ℕ} (hBy : 0 < By) {xb xb' : Fin Bx → X × ℝ} (hx : ∀ r, (xb' r).1 = (xb r).1)
    {yb yb' : Fin By → X × ℝ} (hy : Round.BlockNear u m yb yb') (r : Fin Bx) :
    Within u (q + m + By) (colOf K xb yb r) (colOf k xb yb r) (o.matvec (fun r c => k' (xb' r).1 (yb' c).1) (fun c => (yb' c).2) r) := by
  obtain ⟨B, rfl⟩ : ∃ B, By = B + 1 := ⟨By - 1, by omega⟩
  obtain ⟨prod, h1, h2⟩ := h.matvec (fun r c => k' (xb' r).1 (yb' c).1) (fun c => (yb' c).2) r
  exact Within.dot hu0 hu hBy (fun c => by rw [hx r, (hy c).1]; exact hk _ _) (fun c => Within.of_near hu0 hu (hy c).2.1 (hy c).2.2) h1 h2

theorem slice (hu0 : 0 ≤ u) (hu : u < 1) (h : Rounding u o) (K k k' : X → X → ℝ) (q : ℕ)
    (hk : ∀ a b, Within u q (K a b) (k a b) (k' a b)) {n m Bx By : ℕ} (hBx : 0 < Bx) (hBy : 0 < By) {xb xb' : Fin Bx → X × ℝ}
    (hx : Round.BlockNear u n xb xb') {yb yb' : Fin By → X × ℝ} (hy : Round.BlockNear u m yb yb') (t : ℕ) (S s s' : ℝ)
    (hss : Within u (n + m + q + Bx + By + t) S s s') :
    Within u (n + m + q + Bx + By + t + 1) (sliceSum K xb S yb).1 (sliceSum k xb s yb).1 (flSliceSum o k' xb' s' yb').1 := by
  have hcol := column hu0 hu h K k k' q hk hBy (fun r => (hx r).1) hy (m := m)
  rw [sliceSum_fst, sliceSum_fst]
  obtain ⟨B, rfl⟩ : ∃ B, Bx = B + 1 := ⟨Bx - 1, by omega⟩
  obtain ⟨prod, h1, h2⟩ := h.dot (fun r => (xb' r).2) (o.matvec (fun r c => k' (xb' r).1 (yb' c).1) (fun c => (yb' c).2))
  have hdot := Within.dot hu0 hu hBx (fun r => Within.of_near hu0 hu (hx r).2.1 (hx r).2.2) hcol h1 h2
  exact Within.round_after hu0 hu (Within.add hss (Within.mono hu0 hu hdot (by omega))) (h.add _ _)

theorem block_snd (hu0 : 0 ≤ u) (hu : u < 1) (h : Rounding u o) (K k k' : X → X → ℝ) (q : ℕ)
    (hk : ∀ a b, Within u q (K a b) (k a b) (k' a b)) {m Bx By : ℕ} (hBy : 0 < By) {xb xb' : Fin Bx → X × ℝ} (hx : ∀ r, (xb' r).1 = (xb r).1)
    (f f' : ℕ → Fin By → X × ℝ) (hf : ∀ b, Round.BlockNear u m (f b) (f' b)) (N : ℕ) (hN : 0 < N) (acc acc' : ℝ) (i : Fin Bx) :
    Within u (q + m + By + (N - 1)) ((blockSum K ((List.range N).map f) acc xb).2 i) ((blockSum k ((List.range N).map f) acc xb).2 i)
      ((flBlockSum o k' ((List.range N).map f') acc' xb').2 i) := by
  obtain ⟨g, hg, hsum⟩ := Round.flBlock_snd (o := o) k' ((List.range N).map f') acc' xb' i
  rw [hsum, blockSum_snd, blockSum_snd]
  have hlen : ((List.range N).map f').length = N := by simp
  have e : ∀ κ : X → X → ℝ, (((List.range N).map f).map fun yb => colOf κ xb yb i).sum
      = ∑ t : Fin ((List.range N).map f').length, colOf κ xb (f t) i := by
    intro κ
    rw [List.map_map]
    have : ∑ t : Fin ((List.range N).map f').length, colOf κ xb (f t) i = ∑ t : Fin N, colOf κ xb (f t) i := by
      refine Fintype.sum_equiv (finCongr hlen) _ _ fun t => rfl
    rw [this, ← List.sum_ofFn, List.ofFn_eq_map, ← List.map_coe_finRange_eq_range, List.map_map]
    rfl
  rw [e, e]
  obtain ⟨M, hM⟩ : ∃ M, ((List.range N).map f').length = M + 1 := ⟨N - 1, by omega⟩
  have hs : RSum u (List.ofFn g) (o.sum g) := by
    clear hsum hg
    revert g
    rw [hM]
    exact fun g => h.sum g
  have h1 := Within.rsum hu0 hu (p := q + m + By) (F := fun t => colOf K xb (f t) i) (f := fun t => colOf k xb (f t) i) (fun t => by
      rw [hg t]
      have := column hu0 hu h K k k' q hk hBy hx (hf t) i
      simpa using this) hs
  exact Within.mono hu0 hu h1 (by omega)

end Signed

section

variable {X : Type*} [Zero X] {u : ℝ} {o : FloatOps ℝ}

/-- C114: rounding errors of the blocked mean of a kernel of either sign, evaluated with at most `q` roundings of quantities of size `K`. The mean over
both axes and every entry of the mean over one axis are exact up to the errors of a number of roundings of the mean of `K`; the number depends on the
numbers of rows, the block sizes and the numbers of blocks only. -/
theorem C114_mean (hu0 : 0 ≤ u) (hu : u < 1) (ho : Rounding u o) (K k k' : X → X → ℝ) (q : ℕ)
    (hk : ∀ a b, Within u q (K a b) (k a b) (k' a b)) {n m : ℕ} (x : Data n X ℝ) (y : Data m X ℝ)
    (hx0 : ∀ i, 0 ≤ x.weights i) (hx : 0 < ∑ i, x.weights i) (hy0 : ∀ i, 0 ≤ y.weights i) (hy : 0 < ∑ i, y.weights i) (bx bY : Option ℤ) :
    ∃ s l, flColumnMean o k' x y bx bY = .ok (s, l) ∧
      Within u (meanRoundings q n m bx bY) (avg x.weights fun i => avg y.weights fun j => K (x.data i) (y.data j))
        (avg x.weights fun i => avg y.weights fun j => k (x.data i) (y.data j)) s ∧
      ∃ hl : l.length = n, ∀ i : Fin n,
        Within u (q + m + effBlock m bY + (blockCount m bY - 1)) (avg y.weights fun j => K (x.data i) (y.data j))
          (avg y.weights fun j => k (x.data i) (y.data j)) (l.get (i.cast hl.symm)) := by
  have hn : 0 < n := by
    rcases Nat.eq_zero_or_pos n with h | h
    · subst h; simp at hx
    · exact h
  have hm : 0 < m := by
    rcases Nat.eq_zero_or_pos m with h | h
    · subst h; simp at hy
    · exact h
  have hBx : 0 < effBlock n bx := Nat.pos_of_ne_zero (fun h => hn.ne' (effBlock_eq_zero.1 h))
  have hBy : 0 < effBlock m bY := Nat.pos_of_ne_zero (fun h => hm.ne' (effBlock_eq_zero.1 h))
  have hNy : 0 < numBlocks m (effBlock m bY) := by
    have := le_numBlocks_mul m _ hBy
    rcases Nat.eq_zero_or_pos (numBlocks m (effBlock m bY)) with h | h
    · rw [h] at this; omega
    · exact h
  have hex := columnMean_eq 0 k hn hm x y bx bY
  have hexK := columnMean_eq 0 K hn hm x y bx bY
  unfold columnMean at hex hexK
  rw [blockDataConvert_of_pos 0 hn, blockDataConvert_of_pos 0 hm] at hex hexK
  simp only [Except.ok.injEq, Prod.mk.injEq] at hex hexK
  obtain ⟨hex1, hex2⟩ := hex
  obtain ⟨hexK1, hexK2⟩ := hexK
  set Bx := effBlock n bx with hBxdef
  set By := effBlock m bY with hBydef
  set fx := fun blk (r : Fin Bx) => paddedRow (x.normalizePZ 0) (blk * Bx + r) with hfx
  set fy := fun blk (r : Fin By) => paddedRow (y.normalizePZ 0) (blk * By + r) with hfy
  set gx := fun blk (r : Fin Bx) => flPaddedRow o (flNormalize o x) (blk * Bx + r) with hgx
  set gy := fun blk (r : Fin By) => flPaddedRow o (flNormalize o y) (blk * By + r) with hgy
  have hRx : ∀ b, Round.BlockNear u n (fx b) (gx b) := fun b => Round.blocks_near hu0 hu ho 0 x hx0 hx Bx b
  have hRy : ∀ b, Round.BlockNear u m (fy b) (gy b) := fun b => Round.blocks_near hu0 hu ho 0 y hy0 hy By b
  have e : ∀ κ : X → X → ℝ, ∑ i, normWeightsPZ 0 x.weights i * ∑ j, κ (x.data i) (y.data j) * normWeightsPZ 0 y.weights j
      = avg x.weights fun i => avg y.weights fun j => κ (x.data i) (y.data j) := by
    intro κ
    simp only [normWeightsPZ_sum_mul 0 hy.ne']
    rw [← normWeightsPZ_sum_mul 0 hx.ne']
    exact Finset.sum_congr rfl fun i _ => mul_comm _ _
  refine ⟨(scan (flBlockSum o k' ((List.range (numBlocks m By)).map gy)) o.zero ((List.range (numBlocks n Bx)).map gx)).1,
    (((scan (flBlockSum o k' ((List.range (numBlocks m By)).map gy)) o.zero ((List.range (numBlocks n Bx)).map gx)).2.map List.ofFn).flatten).take n,
    ?_, ?_, ?_⟩
  · unfold flColumnMean
    rw [Round.flBlockConvert_of_pos hn, Round.flBlockConvert_of_pos hm]
  · have hinner : ∀ (t : ℕ) S s s' (xb xb' : Fin Bx → X × ℝ), Within u (n + m + q + Bx + By + t) S s s' → Round.BlockNear u n xb xb' →
        Within u (n + m + q + Bx + By + t + numBlocks m By) (blockSum K ((List.range (numBlocks m By)).map fy) S xb).1
          (blockSum k ((List.range (numBlocks m By)).map fy) s xb).1 (flBlockSum o k' ((List.range (numBlocks m By)).map gy) s' xb').1 := by
      intro t S s s' xb xb' hss hxb
      have := scan_within (u := u) (sliceSum k xb) (sliceSum K xb) (flSliceSum o k' xb') (n + m + q + Bx + By) 1
        (fun t S s s' a a' h2 h3 => Signed.slice hu0 hu ho K k k' q hk hBx hBy hxb h3 t S s s' h2)
        (Round.forall₂_map_range fy gy hRy (numBlocks m By)) t S s s' hss
      simpa [blockSum, flBlockSum] using this
    have h2 := scan_within (u := u) (blockSum k ((List.range (numBlocks m By)).map fy)) (blockSum K ((List.range (numBlocks m By)).map fy))
      (flBlockSum o k' ((List.range (numBlocks m By)).map gy)) (n + m + q + Bx + By) (numBlocks m By)
      (fun t S s s' a a' h2 h3 => hinner t S s s' a a' h2 h3)
      (Round.forall₂_map_range fx gx hRx (numBlocks n Bx)) 0 0 0 o.zero (by rw [ho.zero]; simp [Within])
    rw [hex1, hexK1, List.length_map, List.length_range, e, e] at h2
    rw [show meanRoundings q n m bx bY = n + m + q + Bx + By + 0 + numBlocks m By * numBlocks n Bx by
      simp only [meanRoundings, blockCount, ← hBxdef, ← hBydef]; ring]
    exact h2
  · have hs : ∀ κ : X → X → ℝ, (scan (blockSum κ ((List.range (numBlocks m By)).map fy)) 0 ((List.range (numBlocks n Bx)).map fx)).2
        = (List.range (numBlocks n Bx)).map fun b => (blockSum κ ((List.range (numBlocks m By)).map fy) 0 (fx b)).2 := by
      intro κ
      rw [scan_snd_of_indep _ (fun xb => (blockSum κ ((List.range (numBlocks m By)).map fy) 0 xb).2)
          (fun s a => by funext i; rw [blockSum_snd, blockSum_snd]), List.map_map]
      rfl
    have hf : (scan (flBlockSum o k' ((List.range (numBlocks m By)).map gy)) o.zero ((List.range (numBlocks n Bx)).map gx)).2
        = (List.range (numBlocks n Bx)).map fun b => (flBlockSum o k' ((List.range (numBlocks m By)).map gy) 0 (gx b)).2 := by
      rw [scan_snd_of_indep _ (fun xb => (flBlockSum o k' ((List.range (numBlocks m By)).map gy) 0 xb).2) (fun s a => by
          funext i
          obtain ⟨f, hf, e1⟩ := Round.flBlock_snd (o := o) k' ((List.range (numBlocks m By)).map gy) s a i
          obtain ⟨f', hf', e2⟩ := Round.flBlock_snd (o := o) k' ((List.range (numBlocks m By)).map gy) 0 a i
          rw [e1, e2]
          exact congrArg _ (funext fun t => (hf t).trans (hf' t).symm)), List.map_map]
      rfl
    rw [hs] at hex2 hexK2
    rw [hf]
    set P := ((List.range (numBlocks n Bx)).map fun b => List.ofFn fun r =>
      ((blockSum K ((List.range (numBlocks m By)).map fy) 0 (fx b)).2 r, (blockSum k ((List.range (numBlocks m By)).map fy) 0 (fx b)).2 r)).flatten with hP
    have hP1 : (P.take n).map Prod.fst = List.ofFn fun i => ∑ j, K (x.data i) (y.data j) * normWeightsPZ 0 y.weights j := by
      rw [← hexK2, List.map_take]
      congr 1
      simp [hP, List.map_flatten, List.map_map, Function.comp_def, List.map_ofFn]
    have hP2 : (P.take n).map Prod.snd = List.ofFn fun i => ∑ j, k (x.data i) (y.data j) * normWeightsPZ 0 y.weights j := by
      rw [← hex2, List.map_take]
      congr 1
      simp [hP, List.map_flatten, List.map_map, Function.comp_def, List.map_ofFn]
    have hF : List.Forall₂ (fun (a : ℝ × ℝ) c => Within u (q + m + By + (numBlocks m By - 1)) a.1 a.2 c) (P.take n)
        ((((List.range (numBlocks n Bx)).map fun b => (flBlockSum o k' ((List.range (numBlocks m By)).map gy) 0 (gx b)).2).map List.ofFn).flatten.take n) := by
      refine List.forall₂_take n (List.rel_flatten ?_)
      rw [List.map_map]
      refine Round.forall₂_map_range _ _ (fun b => ?_) _
      rw [List.forall₂_iff_get]
      exact ⟨by simp, fun i h1 h2 => by
        simpa using Signed.block_snd hu0 hu ho K k k' q hk hBy (fun r => (hRx b r).1) fy gy hRy _ hNy 0 0 ⟨i, by simpa using h1⟩⟩
    have hlen := hF.length_eq
    have hlenP : (P.take n).length = n := by
      have := congrArg List.length hP1
      rwa [List.length_map, List.length_ofFn] at this
    refine ⟨hlen.symm.trans hlenP, fun i => ?_⟩
    have h1 := (List.forall₂_iff_get.1 hF).2 i (by rw [hlenP]; exact i.2) (by rw [← hlen, hlenP]; exact i.2)
    have h2 : ((P.take n).get ⟨i, by rw [hlenP]; exact i.2⟩).1 = ∑ j, K (x.data i) (y.data j) * normWeightsPZ 0 y.weights j := by
      have : ((P.take n).map Prod.fst)[(i : ℕ)]? = some (∑ j, K (x.data i) (y.data j) * normWeightsPZ 0 y.weights j) := by
        rw [hP1]; simp
      rw [List.getElem?_map, List.getElem?_eq_getElem (by rw [hlenP]; exact i.2)] at this
      simpa using this
    have h3 : ((P.take n).get ⟨i, by rw [hlenP]; exact i.2⟩).2 = ∑ j, k (x.data i) (y.data j) * normWeightsPZ 0 y.weights j := by
      have : ((P.take n).map Prod.snd)[(i : ℕ)]? = some (∑ j, k (x.data i) (y.data j) * normWeightsPZ 0 y.weights j) := by
        rw [hP2]; simp
      rw [List.getElem?_map, List.getElem?_eq_getElem (by rw [hlenP]; exact i.2)] at this
      simpa using this
    rw [h2, h3, normWeightsPZ_sum_mul 0 hy.ne', normWeightsPZ_sum_mul 0 hy.ne'] at h1
    exact h1

/-- C114: two block sizes give the same mean up to the errors of both. -/
theorem C114_block_sizes (hu0 : 0 ≤ u) (hu : u < 1) (ho : Rounding u o) (K k k' : X → X → ℝ) (q : ℕ)
    (hk : ∀ a b, Within u q (K a b) (k a b) (k' a b)) {n m : ℕ} (x : Data n X ℝ) (y : Data m X ℝ)
    (hx0 : ∀ i, 0 ≤ x.weights i) (hx : 0 < ∑ i, x.weights i) (hy0 : ∀ i, 0 ≤ y.weights i) (hy : 0 < ∑ i, y.weights i) (bx bY cx cY : Option ℤ) :
    ∃ s l s' l', flColumnMean o k' x y bx bY = .ok (s, l) ∧ flColumnMean o k' x y cx cY = .ok (s', l') ∧
      |s - s'| ≤ (1 / (1 - u) ^ meanRoundings q n m bx bY - 1 + (1 / (1 - u) ^ meanRoundings q n m cx cY - 1))
        * (avg x.weights fun i => avg y.weights fun j => K (x.data i) (y.data j)) := by
  obtain ⟨s, l, h1, h2, -⟩ := C114_mean hu0 hu ho K k k' q hk x y hx0 hx hy0 hy bx bY
  obtain ⟨s', l', h1', h2', -⟩ := C114_mean hu0 hu ho K k k' q hk x y hx0 hx hy0 hy cx cY
  refine ⟨s, l, s', l', h1, h1', (abs_sub_le _ (avg x.weights fun i => avg y.weights fun j => k (x.data i) (y.data j)) _).trans ?_⟩
  rw [abs_sub_comm _ s', add_mul]
  exact add_le_add h2.2 h2'.2

/-- The roundings in the squared discrepancy. -/
def ksdRoundings (q m : ℕ) (a b : Option ℤ) : ℕ := max (meanRoundings q m m a b) (m + 4) + 2

/-- The size of the terms of the squared discrepancy: the mean of the bound of the kernel and the means of the absolute values of the two corrections. -/
noncomputable def Spec.ksdSize (K : X → X → ℝ) {m : ℕ} (y : Data m X ℝ) (logp lap : Option (Fin m → ℝ)) : ℝ :=
  (avg y.weights fun i => avg y.weights fun j => K (y.data i) (y.data j))
    + (match lap with | none => 0 | some l => (∑ i, |l i|) / (m : ℝ) ^ 2)
    + (match logp with | none => 0 | some l => 1 / (m : ℝ) * ((∑ i, |l i|) / m))

/-- The exact squared discrepancy. -/
noncomputable def Spec.ksdSq (k : X → X → ℝ) {m : ℕ} (y : Data m X ℝ) (logp lap : Option (Fin m → ℝ)) : ℝ :=
  (avg y.weights fun i => avg y.weights fun j => k (y.data i) (y.data j))
    + (match lap with | none => 0 | some l => (∑ i, l i) / (m : ℝ) ^ 2)
    - (match logp with | none => 0 | some l => 1 / (m : ℝ) * ((∑ i, l i) / m))

theorem Signed.laplace (hu0 : 0 ≤ u) (hu : u < 1) (ho : Rounding u o) (num : ℕ → ℝ) (hnum : ∀ n : ℕ, |num n - n| ≤ u * |(n : ℝ)|) {m : ℕ} (hm : 0 < m)
    (lap : Option (Fin m → ℝ)) : Within u (m + 1) (match lap with | none => 0 | some l => (∑ i, |l i|) / (m : ℝ) ^ 2)
      (match lap with | none => 0 | some l => (∑ i, l i) / (m : ℝ) ^ 2) (flLaplace o num lap) := by
  cases lap with
  | none => simp [flLaplace, ho.zero, Within]
  | some l =>
    obtain ⟨M, rfl⟩ : ∃ M, m = M + 1 := ⟨m - 1, by omega⟩
    have h1 := Within.rsum hu0 hu (p := 0) (fun i => Within.refl u (l i)) (ho.sum l)
    have hn : Near u 1 (((M + 1 : ℕ) : ℝ) ^ 2) (num ((M + 1) ^ 2)) := by
      have := hnum ((M + 1) ^ 2)
      rw [Nat.cast_pow] at this
      exact Near.round hu0 hu (by positivity) this
    have hp : (0 : ℝ) < ((M + 1 : ℕ) : ℝ) ^ 2 := by positivity
    have h2 := Within.div hu0 hu hp h1 hn
    have h3 := Within.round_after hu0 hu h2 (ho.div _ _ (Near.pos hu hp hn).ne')
    exact Within.mono hu0 hu h3 (by omega)

theorem Signed.entropic (hu0 : 0 ≤ u) (hu : u < 1) (ho : Rounding u o) (num : ℕ → ℝ) (hnum : ∀ n : ℕ, |num n - n| ≤ u * |(n : ℝ)|) {m : ℕ} (hm : 0 < m)
    (logp : Option (Fin m → ℝ)) : Within u (m + 3) (match logp with | none => 0 | some l => 1 / (m : ℝ) * ((∑ i, |l i|) / m))
      (match logp with | none => 0 | some l => 1 / (m : ℝ) * ((∑ i, l i) / m)) (flEntropic o num logp) := by
  cases logp with
  | none => simp [flEntropic, ho.zero, Within]
  | some l =>
    obtain ⟨M, rfl⟩ : ∃ M, m = M + 1 := ⟨m - 1, by omega⟩
    have h1 := Within.rsum hu0 hu (p := 0) (fun i => Within.refl u (l i)) (ho.sum l)
    have hp : (0 : ℝ) < ((M + 1 : ℕ) : ℝ) := by positivity
    have hn : Near u 1 ((M + 1 : ℕ) : ℝ) (num (M + 1)) := Near.round hu0 hu hp.le (hnum _)
    have hne := (Near.pos hu hp hn).ne'
    have h3 := Within.round_after hu0 hu (Within.div hu0 hu hp h1 hn) (ho.div _ _ hne)
    have h4 := Within.round_after hu0 hu (Within.div hu0 hu hp h3 hn) (ho.div _ _ hne)
    dsimp only
    rw [one_div_mul_eq_div, one_div_mul_eq_div]
    exact Within.mono hu0 hu h4 (by omega)

/-- The root of a number known up to an error. -/
theorem Signed.root (hu0 : 0 ≤ u) (ho : Rounding u o) {s D E : ℝ} (hD : |s - D| ≤ E) :
    |o.root s - Real.sqrt (max 0 D)| ≤ u * Real.sqrt (max 0 D) + (1 + u) * Real.sqrt E := by
  have hE0 : 0 ≤ E := (abs_nonneg _).trans hD
  rw [abs_le] at hD
  have r1 : Real.sqrt (max 0 s) ≤ Real.sqrt (max 0 D) + Real.sqrt E := by
    refine (Real.sqrt_le_sqrt ?_).trans (Round.sqrt_add_le (le_max_left 0 D) hE0)
    refine max_le (add_nonneg (le_max_left _ _) hE0) ?_
    have := le_max_right 0 D
    linarith [hD.2]
  have r2 : Real.sqrt (max 0 D) ≤ Real.sqrt (max 0 s) + Real.sqrt E := by
    refine (Real.sqrt_le_sqrt ?_).trans (Round.sqrt_add_le (le_max_left 0 s) hE0)
    refine max_le (add_nonneg (le_max_left _ _) hE0) ?_
    have := le_max_right 0 s
    linarith [hD.1]
  have r3 := ho.root s
  have r4 : u * Real.sqrt (max 0 s) ≤ u * (Real.sqrt (max 0 D) + Real.sqrt E) := mul_le_mul_of_nonneg_left r1 hu0
  have r5 := Real.sqrt_nonneg E
  rw [abs_le] at r3 ⊢
  constructor <;> nlinarith [r3.1, r3.2]

/-- The root of a positive number known up to an error: the error of the root is that of the number divided by the root. -/
theorem Signed.root_pos (hu0 : 0 ≤ u) (ho : Rounding u o) {s D E : ℝ} (hD0 : 0 < D) (hD : |s - D| ≤ E) :
    |o.root s - Real.sqrt D| ≤ u * Real.sqrt D + (1 + u) * (E / Real.sqrt D) := by
  have hr := Real.sqrt_pos.2 hD0
  set a := Real.sqrt (max 0 s) with ha
  set b := Real.sqrt D with hb
  have ha0 : 0 ≤ a := Real.sqrt_nonneg _
  have h1 : |max 0 s - D| ≤ E := by
    refine le_trans ?_ hD
    have := abs_max_sub_max_le_abs s D 0
    rwa [max_comm s, max_comm D, max_eq_right hD0.le] at this
  have h2 : |a - b| ≤ E / b := by
    rw [le_div_iff₀ hr]
    have e1 : max 0 s - D = (a - b) * (a + b) := by
      have q1 : a * a = max 0 s := Real.mul_self_sqrt (le_max_left 0 s)
      have q2 : b * b = D := Real.mul_self_sqrt hD0.le
      rw [← q1, ← q2]; ring
    rw [e1, abs_mul, abs_of_nonneg (by linarith : 0 ≤ a + b)] at h1
    nlinarith [abs_nonneg (a - b)]
  have r3 := ho.root s
  rw [← ha] at r3
  have h4 : u * a ≤ u * (b + E / b) := mul_le_mul_of_nonneg_left (by linarith [le_abs_self (a - b)]) hu0
  rw [abs_le] at r3 h2 ⊢
  constructor <;> nlinarith [r3.1, r3.2, h2.1, h2.2]

theorem Signed.ksd_squared (hu0 : 0 ≤ u) (hu : u < 1) (ho : Rounding u o) (num : ℕ → ℝ) (hnum : ∀ n : ℕ, |num n - n| ≤ u * |(n : ℝ)|)
    (K k k' : X → X → ℝ) (q : ℕ) (hk : ∀ a b, Within u q (K a b) (k a b) (k' a b)) {m : ℕ} (y : Data m X ℝ)
    (hy0 : ∀ i, 0 ≤ y.weights i) (hy : 0 < ∑ i, y.weights i) (logp lap : Option (Fin m → ℝ))
    (bs : PyTree (Option ℤ)) (a b : Option ℤ) (hab : treeLeavesRepeat bs 2 = [a, b]) :
    0 < m ∧ ∃ s, flKSD o num k' y bs logp lap = .ok (o.root s) ∧ Within u (ksdRoundings q m a b) (ksdSize K y logp lap) (ksdSq k y logp lap) s := by
  have hm : 0 < m := by
    rcases Nat.eq_zero_or_pos m with h | h
    · subst h; simp at hy
    · exact h
  obtain ⟨s, l, e1, h1, -⟩ := C114_mean hu0 hu ho K k k' q hk y y hy0 hy hy0 hy a b
  refine ⟨hm, o.sub (o.add s (flLaplace o num lap)) (flEntropic o num logp), ?_, ?_⟩
  · unfold flKSD
    rw [hab]
    simp only [e1]
  · have n1 := Within.mono hu0 hu h1 (le_max_left _ (m + 4))
    have n2 := Within.mono hu0 hu (Signed.laplace hu0 hu ho num hnum hm lap) (q := max (meanRoundings q m m a b) (m + 4)) (by omega)
    have n3 := Within.mono hu0 hu (Signed.entropic hu0 hu ho num hnum hm logp) (q := max (meanRoundings q m m a b) (m + 4) + 1) (by omega)
    have n4 := Within.round_after hu0 hu (Within.add n1 n2) (ho.add _ _)
    exact Within.round_after hu0 hu (Within.sub n4 n3) (ho.sub _ _)

/-- C114: the KSD computed with rounding differs from the exact one by a relative error of `u` and by an absolute error of the square root of the
error of the squared discrepancy, which is relative to the size of its terms. With both corrections or without. -/
theorem C114_ksd (hu0 : 0 ≤ u) (hu : u < 1) (ho : Rounding u o) (num : ℕ → ℝ) (hnum : ∀ n : ℕ, |num n - n| ≤ u * |(n : ℝ)|) (big : ℝ)
    (K k k' : X → X → ℝ) (q : ℕ) (hk : ∀ a b, Within u q (K a b) (k a b) (k' a b)) {m : ℕ} (y : Data m X ℝ)
    (hy0 : ∀ i, 0 ≤ y.weights i) (hy : 0 < ∑ i, y.weights i) (logp lap : Option (Fin m → ℝ))
    (bs bs' : PyTree (Option ℤ)) (a b : Option ℤ) (hab : treeLeavesRepeat bs 2 = [a, b]) (hbs' : ValidBlock bs') :
    ∃ r e, flKSD o num k' y bs logp lap = .ok r ∧ ksdCompute big k y bs' logp lap = .ok e ∧
      |r - e| ≤ u * e + (1 + u) * Real.sqrt ((1 / (1 - u) ^ ksdRoundings q m a b - 1) * ksdSize K y logp lap) := by
  obtain ⟨hm, s, h1, h2⟩ := Signed.ksd_squared hu0 hu ho num hnum K k k' q hk y hy0 hy logp lap bs a b hab
  exact ⟨_, _, h1, C35_ksd_value big k hm y hy.ne' bs' hbs' logp lap, Signed.root hu0 ho h2.2⟩

/-- C114: a discrepancy that is not zero is computed with an error that is the error of its square divided by the discrepancy itself: the relative
error grows with the square of the ratio of the terms to the discrepancy, no faster. -/
theorem C114_ksd_relative (hu0 : 0 ≤ u) (hu : u < 1) (ho : Rounding u o) (num : ℕ → ℝ) (hnum : ∀ n : ℕ, |num n - n| ≤ u * |(n : ℝ)|) (big : ℝ)
    (K k k' : X → X → ℝ) (q : ℕ) (hk : ∀ a b, Within u q (K a b) (k a b) (k' a b)) {m : ℕ} (y : Data m X ℝ)
    (hy0 : ∀ i, 0 ≤ y.weights i) (hy : 0 < ∑ i, y.weights i) (logp lap : Option (Fin m → ℝ))
    (bs bs' : PyTree (Option ℤ)) (a b : Option ℤ) (hab : treeLeavesRepeat bs 2 = [a, b]) (hbs' : ValidBlock bs')
    (e : ℝ) (he : ksdCompute big k y bs' logp lap = .ok e) (hpos : 0 < e) :
    ∃ r, flKSD o num k' y bs logp lap = .ok r ∧
      |r - e| ≤ (u + (1 + u) * ((1 / (1 - u) ^ ksdRoundings q m a b - 1) * (ksdSize K y logp lap / e ^ 2))) * e := by
  obtain ⟨hm, s, h1, h2⟩ := Signed.ksd_squared hu0 hu ho num hnum K k k' q hk y hy0 hy logp lap bs a b hab
  have he' : Real.sqrt (max 0 (ksdSq k y logp lap)) = e := by
    rw [C35_ksd_value big k hm y hy.ne' bs' hbs' logp lap] at he
    exact Except.ok.inj he
  have hD : 0 < ksdSq k y logp lap := by
    by_contra h
    rw [max_eq_left (not_lt.1 h), Real.sqrt_zero] at he'
    exact hpos.ne he'
  rw [max_eq_right hD.le] at he'
  refine ⟨_, h1, ?_⟩
  have := Signed.root_pos hu0 ho hD h2.2
  rw [he'] at this
  refine this.trans (le_of_eq ?_)
  field_simp


/-- C114: two weighted sets are put in the right order by the computed discrepancies whenever the exact ones differ by more than the errors. -/
theorem C114_compare (hu0 : 0 ≤ u) (hu : u < 1) (ho : Rounding u o) (num : ℕ → ℝ) (hnum : ∀ n : ℕ, |num n - n| ≤ u * |(n : ℝ)|) (big : ℝ)
    (K k k' : X → X → ℝ) (q : ℕ) (hk : ∀ a b, Within u q (K a b) (k a b) (k' a b)) {m m' : ℕ} (y : Data m X ℝ) (z : Data m' X ℝ)
    (hy0 : ∀ i, 0 ≤ y.weights i) (hy : 0 < ∑ i, y.weights i) (hz0 : ∀ i, 0 ≤ z.weights i) (hz : 0 < ∑ i, z.weights i)
    (bs bs' : PyTree (Option ℤ)) (a b : Option ℤ) (hab : treeLeavesRepeat bs 2 = [a, b]) (hbs' : ValidBlock bs')
    (e f : ℝ) (he : ksdCompute big k y bs' none none = .ok e) (hf : ksdCompute big k z bs' none none = .ok f)
    (hgap : (1 + u) * (e + Real.sqrt ((1 / (1 - u) ^ ksdRoundings q m a b - 1) * avg y.weights fun i => avg y.weights fun j => K (y.data i) (y.data j)))
      + (1 + u) * Real.sqrt ((1 / (1 - u) ^ ksdRoundings q m' a b - 1) * avg z.weights fun i => avg z.weights fun j => K (z.data i) (z.data j))
      < (1 - u) * f) :
    ∃ r s, flKSD o num k' y bs none none = .ok r ∧ flKSD o num k' z bs none none = .ok s ∧ r < s := by
  obtain ⟨r, e', h1, h2, h3⟩ := C114_ksd hu0 hu ho num hnum big K k k' q hk y hy0 hy none none bs bs' a b hab hbs'
  obtain ⟨s, f', g1, g2, g3⟩ := C114_ksd hu0 hu ho num hnum big K k k' q hk z hz0 hz none none bs bs' a b hab hbs'
  obtain rfl : e = e' := Except.ok.inj (he.symm.trans h2)
  obtain rfl : f = f' := Except.ok.inj (hf.symm.trans g2)
  refine ⟨r, s, h1, g1, ?_⟩
  simp only [Spec.ksdSize, add_zero] at h3 g3
  have a1 := (abs_le.1 h3).2
  have a2 := (abs_le.1 g3).1
  linarith

/-- C114: the MMD of a kernel of either sign. -/
theorem C114_mmd (hu0 : 0 ≤ u) (hu : u < 1) (ho : Rounding u o) (big : ℝ) (K k k' : X → X → ℝ) (q : ℕ)
    (hk : ∀ a b, Within u q (K a b) (k a b) (k' a b)) {n m : ℕ} (x : Data n X ℝ) (y : Data m X ℝ)
    (hx0 : ∀ i, 0 ≤ x.weights i) (hx : 0 < ∑ i, x.weights i) (hy0 : ∀ i, 0 ≤ y.weights i) (hy : 0 < ∑ i, y.weights i)
    (bs bs' : PyTree (Option ℤ)) (a b : Option ℤ) (hab : treeLeavesRepeat bs 2 = [a, b]) (hbs' : ValidBlock bs') :
    ∃ r e, flMMD o k' x y bs = .ok r ∧ mmdCompute big k x y bs' = .ok e ∧
      |r - e| ≤ u * e + (1 + u) * Real.sqrt ((1 / (1 - u) ^ (mmdRoundings q n m a b + 2) - 1)
        * ((avg x.weights fun i => avg x.weights fun j => K (x.data i) (x.data j)) + (avg y.weights fun i => avg y.weights fun j => K (y.data i) (y.data j))
          + 2 * avg x.weights fun i => avg y.weights fun j => K (x.data i) (y.data j))) := by
  have hn : 0 < n := by
    rcases Nat.eq_zero_or_pos n with h | h
    · subst h; simp at hx
    · exact h
  have hm : 0 < m := by
    rcases Nat.eq_zero_or_pos m with h | h
    · subst h; simp at hy
    · exact h
  obtain ⟨sxx, lxx, e1, h1, -⟩ := C114_mean hu0 hu ho K k k' q hk x x hx0 hx hx0 hx a a
  obtain ⟨syy, lyy, e2, h2, -⟩ := C114_mean hu0 hu ho K k k' q hk y y hy0 hy hy0 hy b b
  obtain ⟨sxy, lxy, e3, h3, -⟩ := C114_mean hu0 hu ho K k k' q hk x y hx0 hx hy0 hy a b
  have n1 := Within.mono hu0 hu h1 (q := mmdRoundings q n m a b) (le_trans (le_max_left _ _) (le_max_left _ _))
  have n2 := Within.mono hu0 hu h2 (q := mmdRoundings q n m a b) (le_trans (le_max_right _ _) (le_max_left _ _))
  have n3 := Within.mono hu0 hu h3 (q := mmdRoundings q n m a b) (le_max_right _ _)
  have n4 := Within.round_after hu0 hu (Within.add n1 n2) (ho.add _ _)
  have n5 := Within.round_after hu0 hu (Within.mul hu0 hu (Within.refl u 2) n3) (ho.mul _ _)
  rw [Nat.zero_add, abs_of_pos (by norm_num : (0 : ℝ) < 2)] at n5
  have n6 := Within.round_after hu0 hu (Within.sub n4 n5) (ho.sub _ _)
  refine ⟨o.root (o.sub (o.add sxx syy) (o.mul o.two sxy)), _, ?_, C07_compute big k hn hm x y hx.ne' hy.ne' bs' hbs', ?_⟩
  · unfold flMMD
    rw [hab]
    simp only [e1, e2, e3]
  · have hsq : mmdSq k x.data x.weights y.data y.weights
        = (avg x.weights fun i => avg x.weights fun j => k (x.data i) (x.data j)) + (avg y.weights fun i => avg y.weights fun j => k (y.data i) (y.data j))
          - 2 * avg x.weights fun i => avg y.weights fun j => k (x.data i) (y.data j) := by
      unfold mmdSq
      ring
    rw [hsq, ho.two]
    exact Signed.root hu0 ho n6.2

end

/-- C114: the square root in the bound is not an artefact. Of the points 1 and -1 the discrepancy for the kernel `a * b` is zero; one product that is
high by the factor `1 + u` makes it half the square root of `u`. -/
theorem C114_root_of_error (u : ℝ) (hu0 : 0 ≤ u) :
    ∃ o : FloatOps ℝ, Rounding u o ∧
      ksdCompute 0 (fun a b : ℝ => a * b) (⟨![1, -1], fun _ => 1⟩ : Data 2 ℝ ℝ) (.leaf none) none none = .ok 0 ∧
      flKSD o (fun n => n) (fun a b : ℝ => a * b) (⟨![1, -1], fun _ => 1⟩ : Data 2 ℝ ℝ) (.leaf none) none none = .ok (Real.sqrt u / 2) := by
  have hid : Rounding u (roundedOps id) := roundedOps_rounding (fun a => by simpa using mul_nonneg hu0 (abs_nonneg a))
  refine ⟨{ roundedOps id with matvec := fun {a b} M v i => ∑ j : Fin b, (if (i : ℕ) = 0 ∧ (j : ℕ) = 0 then 1 + u else 1) * (M i j * v j) }, ?_, ?_, ?_⟩
  · refine { hid with matvec := ?_ }
    intro a b M v i
    refine ⟨fun j => (if (i : ℕ) = 0 ∧ (j : ℕ) = 0 then 1 + u else 1) * (M i j * v j), fun j => ?_, ?_⟩
    · dsimp only
      split_ifs
      · rw [show (1 + u) * (M i j * v j) - M i j * v j = u * (M i j * v j) by ring, abs_mul, abs_of_nonneg hu0]
      · simpa using mul_nonneg hu0 (abs_nonneg (M i j * v j))
    · have h := hid.sum (fun j : Fin (b + 1) => (if (i : ℕ) = 0 ∧ (j : ℕ) = 0 then 1 + u else 1) * (M i j * v j))
      have e : (roundedOps id).sum (fun j : Fin (b + 1) => (if (i : ℕ) = 0 ∧ (j : ℕ) = 0 then 1 + u else 1) * (M i j * v j))
          = ∑ j : Fin (b + 1), (if (i : ℕ) = 0 ∧ (j : ℕ) = 0 then 1 + u else 1) * (M i j * v j) := by
        simp only [roundedOps, id]
        rw [← List.sum_ofFn, List.ofFn_succ, List.sum_cons, List.tail_cons, List.headD_cons]
        have : ∀ (l : List ℝ) (s : ℝ), l.foldl (fun s a => s + a) s = s + l.sum := by
          intro l
          induction l with
          | nil => simp
          | cons a l ih => intro s; simp [ih, add_assoc]
        exact this _ _
      rw [e] at h
      exact h
  · rw [C35_ksd_value 0 (fun a b : ℝ => a * b) (by norm_num : 0 < 2) ⟨![1, -1], fun _ => 1⟩ (by simp) (.leaf none) (.inl rfl)]
    simp [avg, Fin.sum_univ_two]
  · have e1 : treeLeavesRepeat (PyTree.leaf (none : Option ℤ)) 2 = [none, none] := rfl
    simp only [flKSD, e1, flColumnMean, flBlockConvert, effBlock, numBlocks, flPaddedRow, flNormalize, roundedOps, id, flLaplace, flEntropic]
    simp [scan, List.range_succ]
    simp only [flBlockSum, flSliceSum, scan]
    simp [Fin.sum_univ_two]
    norm_num
    rw [show 1 / 2 * ((1 + u) * (1 / 2) + -(1 / 2)) = u / 2 ^ 2 by ring, max_eq_right (by positivity), Real.sqrt_div hu0,
      Real.sqrt_sq (by norm_num)]

/-- C114: the errors do not depend on the arithmetic: no rows divide by zero, and a block size that does not repeat to two leaves is a value error. -/
theorem C114_failures {X F : Type*} [Zero X] (o : FloatOps F) (num : ℕ → F) (k : X → X → F) {m : ℕ} (y : Data m X F) (bs : PyTree (Option ℤ))
    (logp lap : Option (Fin m → F)) :
    (m = 0 → (treeLeavesRepeat bs 2).length = 2 → flKSD o num k y bs logp lap = .error .zeroDivisionError) ∧
    ((treeLeavesRepeat bs 2).length ≠ 2 → flKSD o num k y bs logp lap = .error .valueError) ∧
    (0 < m → (treeLeavesRepeat bs 2).length = 2 → ∃ r, flKSD o num k y bs logp lap = .ok r) := by
  refine ⟨fun hm hl => ?_, fun hl => ?_, fun hm hl => ?_⟩
  · obtain ⟨a, b, hab⟩ := List.length_eq_two.1 hl
    have hB : effBlock m a = 0 := effBlock_eq_zero.2 hm
    unfold flKSD
    rw [hab]
    simp [flColumnMean, flBlockConvert, hB]
  · unfold flKSD
    split
    · rename_i a b h
      exact absurd (by rw [h]; rfl) hl
    · rfl
  · obtain ⟨a, b, hab⟩ := List.length_eq_two.1 hl
    have hB : ∀ b, effBlock m b ≠ 0 := fun b h => hm.ne' (effBlock_eq_zero.1 h)
    unfold flKSD
    rw [hab]
    simp [flColumnMean, flBlockConvert, hB]

/-! ### Cases -/

example := (C114_failures (roundedOps (binaryRound 23)) (fun n => n) (fun a b : ℝ => a * b) (⟨![], ![]⟩ : Data 0 ℝ ℝ) (.leaf none) none none).1 rfl rfl
example := (C114_failures (roundedOps (binaryRound 23)) (fun n => n) (fun a b : ℝ => a * b) (⟨![1], ![1]⟩ : Data 1 ℝ ℝ) (.node [.leaf none, .leaf none, .leaf none])
  none none).2.1 (by decide)
example := (C114_failures (roundedOps (binaryRound 23)) (fun n => n) (fun a b : ℝ => a * b) (⟨![1], ![1]⟩ : Data 1 ℝ ℝ) (.leaf (some 5)) none none).2.2
  one_pos rfl

/-- The product kernel in single precision: one rounding, of the size of the product. -/
theorem Signed.product (a b : ℝ) : Within ((1 / 2) ^ 24) 1 |a * b| (a * b) (binaryRound 23 (a * b)) :=
  Within.round_after (by norm_num) (by norm_num) (Within.refl _ (a * b)) (binaryRound_error 23 (a * b))

/-- Single precision, weights that differ, blocks of two. -/
example := C114_mean (u := (1 / 2) ^ 24) (by norm_num) (by norm_num) (roundedOps_rounding fun a => binaryRound_error 23 a)
    (fun a b : ℝ => |a * b|) (fun a b => a * b) (fun a b => binaryRound 23 (a * b)) 1 Signed.product (n := 3) (m := 2) ⟨![1, -2, 4], ![1, 1, 1]⟩ ⟨![1, -3], ![1, 2]⟩
    (by intro i; fin_cases i <;> norm_num) (by simp [Fin.sum_univ_three]; norm_num) (by intro i; fin_cases i <;> norm_num) (by simp [Fin.sum_univ_two]; norm_num)
    (some 2) (some 1)

example := C114_block_sizes (u := (1 / 2) ^ 24) (by norm_num) (by norm_num) (roundedOps_rounding fun a => binaryRound_error 23 a)
    (fun a b : ℝ => |a * b|) (fun a b => a * b) (fun a b => binaryRound 23 (a * b)) 1 Signed.product (n := 3) (m := 2) ⟨![1, -2, 4], ![1, 1, 1]⟩ ⟨![1, -3], ![1, 2]⟩
    (by intro i; fin_cases i <;> norm_num) (by simp [Fin.sum_univ_three]; norm_num) (by intro i; fin_cases i <;> norm_num) (by simp [Fin.sum_univ_two]; norm_num)
    (some 2) (some 1) none none

/-- With both corrections, the numbers of rows rounded as well. -/
example := C114_ksd (u := (1 / 2) ^ 24) (by norm_num) (by norm_num) (roundedOps_rounding fun a => binaryRound_error 23 a)
    (fun n => binaryRound 23 n) (fun n => binaryRound_error 23 n) 1000
    (fun a b : ℝ => |a * b|) (fun a b => a * b) (fun a b => binaryRound 23 (a * b)) 1 Signed.product (m := 3) ⟨![1, -2, 4], ![1, 1, 1]⟩
    (by intro i; fin_cases i <;> norm_num) (by simp [Fin.sum_univ_three]; norm_num) (some ![-1, -2, -3]) (some ![0, 1, 0]) (.leaf (some 2)) (.leaf none) (some 2) (some 2) rfl (.inl rfl)

example : ksdRoundings 1 3 (some 2) (some 2) = 17 := by decide

theorem Signed.ksd_product (y : Fin 2 → ℝ) : ksdCompute 1000 (fun a b : ℝ => a * b) ⟨y, fun _ => 1⟩ (.leaf none) none none = .ok (|y 0 + y 1| / 2) := by
  rw [C35_ksd_value 1000 (fun a b : ℝ => a * b) (by norm_num : 0 < 2) ⟨y, fun _ => 1⟩ (by simp) (.leaf none) (.inl rfl)]
  simp only [avg, Fin.sum_univ_two]
  rw [show max 0 ((1 * ((1 * (y 0 * y 0) + 1 * (y 0 * y 1)) / (1 + 1)) + 1 * ((1 * (y 1 * y 0) + 1 * (y 1 * y 1)) / (1 + 1))) / (1 + 1) + 0 - 0)
      = ((y 0 + y 1) / 2) ^ 2 by rw [max_eq_right] <;> nlinarith [sq_nonneg (y 0 + y 1)], Real.sqrt_sq_eq_abs, abs_div, abs_of_pos (by norm_num : (0 : ℝ) < 2)]

example := C114_ksd_relative (u := (1 / 2) ^ 24) (by norm_num) (by norm_num) (roundedOps_rounding fun a => binaryRound_error 23 a)
    (fun n => binaryRound 23 n) (fun n => binaryRound_error 23 n) 1000
    (fun a b : ℝ => |a * b|) (fun a b => a * b) (fun a b => binaryRound 23 (a * b)) 1 Signed.product (m := 2) ⟨![1, -4], fun _ => 1⟩
    (fun _ => zero_le_one) (by simp) none none (.leaf (some 2)) (.leaf none) (some 2) (some 2) rfl (.inl rfl) _ (Signed.ksd_product ![1, -4])
    (by norm_num)

/-- Single precision tells a discrepancy of zero from one of two. -/
example := C114_compare (u := (1 / 2) ^ 24) (by norm_num) (by norm_num) (roundedOps_rounding fun a => binaryRound_error 23 a)
    (fun n => binaryRound 23 n) (fun n => binaryRound_error 23 n) 1000
    (fun a b : ℝ => |a * b|) (fun a b => a * b) (fun a b => binaryRound 23 (a * b)) 1 Signed.product (m := 2) (m' := 2) ⟨![1, -1], fun _ => 1⟩ ⟨![1, 3], fun _ => 1⟩
    (fun _ => zero_le_one) (by simp) (fun _ => zero_le_one) (by simp) (.leaf none) (.leaf none) none none rfl (.inl rfl) _ _
    (Signed.ksd_product ![1, -1]) (Signed.ksd_product ![1, 3]) (by
      have h : ksdRoundings 1 2 none none = 12 := by decide
      have b : ∀ c : ℝ, c ≤ 100 → Real.sqrt ((1 / (1 - (1 / 2) ^ 24) ^ 12 - 1) * c) ≤ 1 / 10 := by
        intro c hc
        refine Real.sqrt_le_iff.2 ⟨by norm_num, ?_⟩
        refine (mul_le_mul_of_nonneg_left hc (by norm_num)).trans (by norm_num)
      rw [h]
      have b1 := b (avg (fun _ : Fin 2 => (1 : ℝ)) fun i => avg (fun _ : Fin 2 => (1 : ℝ)) fun j => |(![1, -1] : Fin 2 → ℝ) i * (![1, -1] : Fin 2 → ℝ) j|)
        (by norm_num [avg, Fin.sum_univ_two])
      have b2 := b (avg (fun _ : Fin 2 => (1 : ℝ)) fun i => avg (fun _ : Fin 2 => (1 : ℝ)) fun j => |(![1, 3] : Fin 2 → ℝ) i * (![1, 3] : Fin 2 → ℝ) j|)
        (by norm_num [avg, Fin.sum_univ_two])
      have c1 : |(![1, -1] : Fin 2 → ℝ) 0 + (![1, -1] : Fin 2 → ℝ) 1| / 2 = 0 := by norm_num
      have c2 : |(![1, 3] : Fin 2 → ℝ) 0 + (![1, 3] : Fin 2 → ℝ) 1| / 2 = 2 := by norm_num
      rw [c1, c2]
      dsimp only
      nlinarith)

example := C114_mmd (u := (1 / 2) ^ 24) (by norm_num) (by norm_num) (roundedOps_rounding fun a => binaryRound_error 23 a) 1000
    (fun a b : ℝ => |a * b|) (fun a b => a * b) (fun a b => binaryRound 23 (a * b)) 1 Signed.product (n := 3) (m := 2) ⟨![1, -2, 4], ![1, 1, 1]⟩ ⟨![1, -3], ![1, 2]⟩
    (by intro i; fin_cases i <;> norm_num) (by simp [Fin.sum_univ_three]; norm_num) (by intro i; fin_cases i <;> norm_num) (by simp [Fin.sum_univ_two]; norm_num)
    (.leaf (some 2)) (.leaf none) (some 2) (some 2) rfl (.inl rfl)

example := C114_root_of_error (1 / 100) (by norm_num)

end Coreax
