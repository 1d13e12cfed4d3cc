import Verif.Model.ExtStein
import Verif.Props.NotANumber
import Verif.Props.Stein

/-!
# C111: Stein thinning around rows that are not numbers
-/

set_option linter.unusedSectionVars false

namespace Coreax

open Ext NotANumber

section
variable {X K : Type*} [Zero X] [Field K] [LinearOrder K] [IsStrictOrderedRing K] {n : ℕ} [NeZero n]

namespace Spec

/-- A row that spoils its own objective: the kernel with itself, the Laplace correction or the log density is NaN. -/
def Spoiled (k : X → X → Ext K) (x : Fin n → X) (lap logp : Fin n → Ext K) (j : Fin n) : Prop :=
  k (x j) (x j) = nan ∨ lap j = nan ∨ logp j = nan

/-- On the rows of `S` (and the zero row of the padding) everything is a number, given by `k'`, `lap'`, `logp'`. -/
structure Sound (k : X → X → Ext K) (k' : X → X → K) (x : Fin n → X) (lap logp : Fin n → Ext K) (lap' logp' : Fin n → K) (S : Fin n → Prop) : Prop where
  kernel : ∀ i j, S i → S j → k (x i) (x j) = fin (k' (x i) (x j))
  padding : ∀ i, S i → ∃ v, k (x i) 0 = fin v
  lap : ∀ i, S i → lap i = fin (lap' i)
  logp : ∀ i, S i → logp i = fin (logp' i)

end Spec

open Spec

namespace NanStein

theorem scatter_same {m : ℕ} {α : Type*} (ord : List (Fin m)) (a : Fin n → α) (idx : Fin m → ℤ) :
    scatterSet ord a idx (fun t => a (gatherIdx n (idx t))) = a := by
  have key : ∀ i : ℤ, ∀ j, scatterIdx n i = some j → gatherIdx n i = j := by
    intro i j h
    unfold scatterIdx at h
    unfold gatherIdx
    simp only at h ⊢
    by_cases hc : 0 ≤ (if i < 0 then i + (n : ℤ) else i) ∧ (if i < 0 then i + (n : ℤ) else i) < n
    · rw [dif_pos hc, Option.some.injEq] at h
      rw [← h]
      apply Fin.ext
      simp only
      omega
    · rw [dif_neg hc] at h
      cases h
  unfold scatterSet
  induction ord with
  | nil => rfl
  | cons t l ih =>
    rw [List.foldl_cons]
    rcases hj : scatterIdx n (idx t) with _ | j
    · exact ih
    · have e := key _ _ hj
      simp only [e, Function.update_eq_self]
      exact ih

/-- Without points to be replaced the mask hides the rows of non-positive weight. -/
theorem masked_fresh {m : ℕ} (w : Fin n → K) (unique : Bool) (ord : List (Fin m)) (cw : Fin m → K) (hcw : ∀ t, cw t = 0) (i : Fin m) (idx : Fin m → ℤ) (pen : Fin n → Ext K) :
    maskedPenalty w unique ord cw i idx pen = fun j => if 0 < w j then pen j else nan := by
  unfold maskedPenalty
  simp only [gt_iff_lt, hcw, lt_irrefl, and_false, if_false]
  split_ifs
  · exact scatter_same ord _ idx
  · rfl

/-- `nanargmin` avoids NaN if the first entry is not one of them (or not all are). -/
theorem nanargmin_avoids {f : Fin n → Ext K} {S : Fin n → Prop} (h0 : S 0) (hS : ∀ j, ¬ S j → f j = nan) (hne : ∃ j, f j ≠ nan) : ∃ i, S i ∧ nanargmin f = (i : ℤ) := by
  obtain ⟨j0, hj0⟩ := hne
  unfold nanargmin
  rw [if_neg fun h => hj0 (h j0)]
  rcases hm : (List.finRange n).argmin (fun i => (f i).keyMin) with _ | i
  · rw [List.argmin_eq_none] at hm
    exact absurd (List.mem_finRange (0 : Fin n)) (by simp [hm])
  · refine ⟨i, ?_, rfl⟩
    by_contra hi
    obtain ⟨-, -, hfirst⟩ := List.mem_argmin_iff.1 hm
    have := hfirst 0 (List.mem_finRange _) (by rw [hS i hi]; cases f 0 <;> simp [Ext.keyMin])
    rw [List.idxOf_finRange, List.idxOf_finRange] at this
    have h00 : ((0 : Fin n) : ℕ) = 0 := rfl
    have : i = 0 := Fin.ext (by omega)
    exact hi (this ▸ h0)

/-- The penalty from which `reduce` starts. -/
theorem start (big : K) (k : X → X → Ext K) (pre : Data n X K) {bs : PyTree (Option ℤ)} (hbs : ValidBlock bs) {size : ℕ} (hs : 0 < size) :
    ∃ pen, initPenaltyX big k pre bs (padIndices (⟨fun _ => 0, fun _ => 0⟩ : Data size ℤ K) size) = .ok (pen, 0) ∧
      (∀ j, (∃ v, k (pre.data j) (pre.data 0) = fin v) → (∃ v, k (pre.data j) 0 = fin v) → pen j = fin 0) ∧
      ∀ j, k (pre.data j) (pre.data 0) = nan → pen j = nan := by
  set p := padIndices (⟨fun _ => 0, fun _ => 0⟩ : Data size ℤ K) size with hp
  have hw : ∀ t, p.weights t = 0 := by
    intro t
    refine Fin.addCases (fun a => ?_) (fun a => ?_) t <;> simp [hp, padIndices, zeroPad]
  have hd : ∀ t, p.data t = 0 := by
    intro t
    refine Fin.addCases (fun a => ?_) (fun a => ?_) t <;> simp [hp, padIndices, zeroPad]
  have hg : (gatherIdx n (0 : ℤ) : Fin n) = 0 := gatherIdx_coe (0 : Fin n)
  have hcard : (Finset.univ.filter fun t => p.weights t > 0).card = 0 := by simp [hw]
  obtain ⟨a, b, hab⟩ := treeLeavesRepeat_of_valid hbs
  set y : Data (size + (size - size)) X K := ⟨fun t => pre.data (gatherIdx n (p.data t)), p.weights⟩ with hy
  have hy0 : ∀ t, y.data t = pre.data 0 := fun t => by simp only [hy, hd, hg]
  obtain ⟨s, hcol⟩ := columnMeanX_row big k (NeZero.pos n) (show 0 < size + (size - size) by omega) (Data.ofArray pre.data) y a b
  obtain ⟨l, hl⟩ : ∃ l, l = List.ofFn fun i => ∑ j ∈ Finset.range (numBlocks (size + (size - size)) (effBlock (size + (size - size)) b) * effBlock (size + (size - size)) b),
      k ((Data.ofArray pre.data : Data n X K).data i) (paddedRow (y.normalizePZ big) j).1 * fin (paddedRow (y.normalizePZ big) j).2 := ⟨_, rfl⟩
  rw [← hl] at hcol
  have hok : computeMeanX big k (Data.ofArray pre.data) y .one bs = .ok l := by simp only [computeMeanX, hab, hcol]
  refine ⟨fun j => fin ((0 : ℕ) : K) * asVec n l j, by unfold initPenaltyX; simp only [hcard, ← hy, hok], fun j ⟨v, hv⟩ ⟨v0, hv0⟩ => ?_, fun j hj => ?_⟩
  · simp only [hl, asVec, List.getD_eq_getElem?_getD, List.getElem?_ofFn, j.2, dif_pos, Option.getD_some]
    have hterm : ∀ t : ℕ, ∃ u, k ((Data.ofArray pre.data : Data n X K).data j) (paddedRow (y.normalizePZ big) t).1 * fin (paddedRow (y.normalizePZ big) t).2 = fin u := by
      intro t
      have hj : (Data.ofArray pre.data : Data n X K).data j = pre.data j := rfl
      rw [hj]
      have : (paddedRow (y.normalizePZ big) t).1 = pre.data 0 ∨ (paddedRow (y.normalizePZ big) t).1 = 0 := by
        unfold paddedRow
        split_ifs with ht
        · left
          simp [Data.normalizePZ, hy0]
        · right
          rfl
      rcases this with h | h <;> rw [h]
      · rw [hv, fin_mul_fin]; exact ⟨_, rfl⟩
      · rw [hv0, fin_mul_fin]; exact ⟨_, rfl⟩
    choose u hu using hterm
    rw [Finset.sum_congr rfl fun t _ => hu t, finsetSum_fin, fin_mul_fin]
    simp
  · obtain ⟨s', l', h1, -, h2⟩ := column_nan big k (NeZero.pos n) (show 0 < size + (size - size) by omega) (Data.ofArray pre.data) y a b
    rw [hcol, Except.ok.injEq, Prod.mk.injEq] at h1
    simp only [h1.2]
    rw [h2 j ⟨⟨0, by omega⟩, by rw [hy0]; exact hj⟩, mul_nan]

/-- The same for numbers. -/
theorem start_numbers (big : K) (k' : X → X → K) (pre : Data n X K) {bs : PyTree (Option ℤ)} (hbs : ValidBlock bs) {size : ℕ} (hs : 0 < size) :
    initPenalty big k' pre bs (padIndices (⟨fun _ => 0, fun _ => 0⟩ : Data size ℤ K) size) = .ok (fun _ => fin 0, 0) := by
  obtain ⟨pen, h1, h2, -⟩ := start big (fun a b => fin (k' a b)) pre hbs hs
  rw [initPenaltyX_fin big _ k' pre (fun _ _ _ _ => rfl)] at h1
  rw [h1]
  congr 2
  funext j
  exact h2 j ⟨_, rfl⟩ ⟨_, rfl⟩

theorem obj_ne_nan {d l g : K} {i : K} {p : Ext K} (hp : (∃ v, p = fin v) ∨ p = pinf) : ((fin d + fin 2 * p) + fin l) - fin i * fin g ≠ nan := by
  rcases hp with ⟨v, rfl⟩ | rfl
  · simp only [fin_mul_fin, fin_add_fin, fin_sub_fin]
    intro h
    cases h
  · have h2 : (fin 2 * pinf : Ext K) = pinf := by
      change Ext.signMul 2 pinf = pinf
      simp [Ext.signMul]
    rw [h2, fin_mul_fin]
    intro h
    change Ext.add (Ext.add (Ext.add (fin d) pinf) (fin l)) (Ext.neg (fin (i * g))) = nan at h
    simp [Ext.add, Ext.neg] at h

open Classical in
theorem run {k : X → X → Ext K} {k' : X → X → K} {pre : Data n X K} {lap logp : Fin n → Ext K} {lap' logp' : Fin n → K} {S : Fin n → Prop}
    (hS : Sound k k' pre.data lap logp lap' logp' S) (hbad : ∀ j, ¬ S j → Spoiled k pre.data lap logp j) (h0 : S 0) (hpos : ∃ j, S j ∧ 0 < pre.weights j)
    (big : K) (u : Bool) {bs : PyTree (Option ℤ)} (hbs : ValidBlock bs) {size : ℕ} (hs : 0 < size) (ord : List (Fin (size + (size - size)))) :
    greedySelectionX big k pre bs u (steinSelectX (fun j => k (pre.data j) (pre.data j)) lap logp) size ⟨fun _ => 0, fun _ => 0⟩ ord
      = greedySelection big k' ⟨pre.data, fun j => if S j then pre.weights j else 0⟩ bs u (steinSelect (fun j => k' (pre.data j) (pre.data j)) lap' logp') size ⟨fun _ => 0, fun _ => 0⟩ ord := by
  obtain ⟨pen, h1, h2, -⟩ := start big k pre hbs hs
  have hpen : ∀ j, S j → pen j = fin 0 := fun j hj => h2 j ⟨_, hS.kernel j 0 hj h0⟩ (hS.padding j hj)
  have hw : ∀ t, (padIndices (⟨fun _ => 0, fun _ => 0⟩ : Data size ℤ K) size).weights t = 0 := by
    intro t
    refine Fin.addCases (fun a => ?_) (fun a => ?_) t <;> simp [padIndices, zeroPad]
  simp only [greedySelectionX, greedySelection, h1, start_numbers big k' ⟨pre.data, fun j => if S j then pre.weights j else 0⟩ hbs hs, Except.ok.injEq, Data.mk.injEq, and_true]
  have key := forLoop_rel (P := fun _ (s s' : GreedyState n (size + (size - size)) K) => s.idx = s'.idx ∧ s.size = s'.size ∧
      ∀ j, S j → s.pen j = s'.pen j ∧ ((∃ v, s.pen j = fin v) ∨ s.pen j = pinf)) size
    (fun i => greedyBodyX k pre.data pre.weights u ord (padIndices (⟨fun _ => 0, fun _ => 0⟩ : Data size ℤ K) size).weights (steinSelectX (fun j => k (pre.data j) (pre.data j)) lap logp)
      (i.castLE (out_le_padded size size)))
    (fun i => greedyBody k' pre.data (fun j => if S j then pre.weights j else 0) u ord (padIndices (⟨fun _ => 0, fun _ => 0⟩ : Data size ℤ K) size).weights
      (steinSelect (fun j => k' (pre.data j) (pre.data j)) lap' logp') (i.castLE (out_le_padded size size)))
    ⟨(padIndices (⟨fun _ => 0, fun _ => 0⟩ : Data size ℤ K) size).data, pen, 0⟩ ⟨(padIndices (⟨fun _ => 0, fun _ => 0⟩ : Data size ℤ K) size).data, fun _ => fin 0, 0⟩
    ⟨rfl, rfl, fun j hj => ⟨hpen j hj, .inl ⟨0, hpen j hj⟩⟩⟩ (fun i s s' ⟨e1, e2, e3⟩ => by
      have hsub : subtractOwnX k pre.data (padIndices (⟨fun _ => 0, fun _ => 0⟩ : Data size ℤ K) size).weights (i.castLE (out_le_padded size size)) s = s.pen := by
        simp [subtractOwnX, hw]
      have hsub' : subtractOwn k' pre.data (padIndices (⟨fun _ => 0, fun _ => 0⟩ : Data size ℤ K) size).weights (i.castLE (out_le_padded size size)) s' = s'.pen := by
        simp [subtractOwn, hw]
      simp only [greedyBodyX, greedyBody, hsub, hsub', masked_fresh _ u ord _ hw, hw, gt_iff_lt, lt_irrefl, if_false]
      set obj : Fin n → Ext K := fun j => ((k (pre.data j) (pre.data j) + fin 2 * (if 0 < pre.weights j then s.pen j else nan)) + lap j)
        - fin (((i.castLE (out_le_padded size size) : ℕ) : K) + 1) * logp j with hobj
      have hnanobj : ∀ j, ¬ S j → obj j = nan := fun j hj => by
        rcases hbad j hj with h | h | h
        · simp only [hobj, h, nan_add, nan_sub]
        · simp only [hobj, h, add_nan, nan_sub]
        · simp only [hobj, h, mul_nan, sub_nan]
      have hsel : steinSelectX (fun j => k (pre.data j) (pre.data j)) lap logp (i.castLE (out_le_padded size size) : ℕ) (fun j => if 0 < pre.weights j then s.pen j else nan) (s.size + 1) = nanargmin obj := rfl
      have hsel' : steinSelect (fun j => k' (pre.data j) (pre.data j)) lap' logp' (i.castLE (out_le_padded size size) : ℕ)
          (fun j => if 0 < (if S j then pre.weights j else 0) then s'.pen j else nan) (s'.size + 1) = nanargmin obj := by
        refine congrArg nanargmin (funext fun j => ?_)
        by_cases hj : S j
        · simp only [steinObjective, hobj, if_pos hj, hS.kernel j j hj hj, hS.lap j hj, hS.logp j hj, (e3 j hj).1, fin_mul_fin]
        · simp only [steinObjective, hnanobj j hj, if_neg hj, lt_irrefl, if_false, mul_nan, add_nan, nan_add, nan_sub]
      obtain ⟨r, hr, hrv⟩ := nanargmin_avoids h0 hnanobj (by
        obtain ⟨j, hj, hwj⟩ := hpos
        refine ⟨j, ?_⟩
        simp only [hobj, if_pos hwj, hS.kernel j j hj hj, hS.lap j hj, hS.logp j hj]
        exact obj_ne_nan (e3 j hj).2)
      rw [hsel, hsel', hrv]
      refine ⟨by rw [e1], by rw [e2], fun j hj => ?_⟩
      have hcol : kernelColumnX k pre.data (r : ℤ) j = fin (k' (pre.data j) (pre.data r)) := by
        simp only [kernelColumnX, gatherIdx_coe, hS.kernel j r hj hr]
      have hcol' : kernelColumn k' pre.data (r : ℤ) j = fin (k' (pre.data j) (pre.data r)) := by
        simp only [kernelColumn, gatherIdx_coe]
      have hnew : s.pen j + fin (k' (pre.data j) (pre.data r)) = s'.pen j + fin (k' (pre.data j) (pre.data r)) ∧
          ((∃ v, s.pen j + fin (k' (pre.data j) (pre.data r)) = fin v) ∨ s.pen j + fin (k' (pre.data j) (pre.data r)) = pinf) := by
        refine ⟨by rw [(e3 j hj).1], ?_⟩
        rcases (e3 j hj).2 with ⟨v, hv⟩ | hv
        · exact .inl ⟨_, by rw [hv, fin_add_fin]⟩
        · exact .inr (by rw [hv]; rfl)
      cases u
      · simpa only [Bool.false_eq_true, if_false, hcol, hcol'] using hnew
      · simp only [if_true, setAt, scatterIdx_coe]
        by_cases hjr : j = r
        · subst hjr
          simp
        · simpa only [Function.update_of_ne hjr, hcol, hcol'] using hnew)
  exact funext fun t => congrFun key.1 _

end NanStein

open NanStein

open Classical in
/-- C111, rows that are passed over: if the first row is sound, and some sound row has weight, Stein thinning treats the rows that spoil their own objective (the kernel
with itself, the Laplace correction or the log density is NaN) exactly as rows of weight zero, and the rest of the run is that of numbers. -/
theorem C111_skip {k : X → X → Ext K} {k' : X → X → K} {pre : Data n X K} {reg : SteinReg n (Ext K)} {lap' logp' : Fin n → K} {S : Fin n → Prop}
    (hS : Sound k k' pre.data reg.lap reg.logp lap' logp' S) (hbad : ∀ j, ¬ S j → Spoiled k pre.data reg.lap reg.logp j) (h0 : S 0) (hpos : ∃ j, S j ∧ 0 < pre.weights j)
    (big : K) (u : Bool) {bs : PyTree (Option ℤ)} (hbs : ValidBlock bs) {size : ℕ} (hs : 0 < size) (ord : List (Fin (size + (size - size)))) :
    steinReduceXR big k u bs size pre reg ord = steinReduce big k' u bs size ⟨pre.data, fun j => if S j then pre.weights j else 0⟩ (some ⟨lap', logp'⟩) ord := by
  unfold steinReduceXR steinReduce initialCoresubset
  split_ifs
  · rfl
  · exact run hS hbad h0 hpos big u hbs hs ord

open Classical in
/-- C111, so the run is the greedy recursion over the sound rows alone, and with `unique` the points differ, as long as there are enough sound rows. -/
theorem C111_greedy {k : X → X → Ext K} {k' : X → X → K} {pre : Data n X K} {reg : SteinReg n (Ext K)} {lap' logp' : Fin n → K} {S : Fin n → Prop}
    (hS : Sound k k' pre.data reg.lap reg.logp lap' logp' S) (hbad : ∀ j, ¬ S j → Spoiled k pre.data reg.lap reg.logp j) (h0 : S 0)
    (big : K) (u : Bool) {bs : PyTree (Option ℤ)} (hbs : ValidBlock bs) {size : ℕ} (hs : 0 < size) (ord : List (Fin (size + (size - size)))) (hord : ∀ t, t ∈ ord)
    (hcount : size ≤ (Finset.univ.filter fun j => S j ∧ 0 < pre.weights j).card) :
    ∃ f : Fin size → Fin n, steinReduceXR big k u bs size pre reg ord = .ok ⟨fun t => (f t : ℤ), fun _ => 1⟩ ∧ (∀ t, S (f t) ∧ 0 < pre.weights (f t)) ∧
      (u = true → Function.Injective f) ∧
      ∀ (i : Fin size) (j : Fin n), S j → 0 < pre.weights j → (u = true → ∀ t, t < i → f t ≠ j) →
        k' (pre.data (f i)) (pre.data (f i)) + lap' (f i) - ((i : ℕ) + 1) * logp' (f i) + 2 * ∑ t, (if t < i then k' (pre.data (f i)) (pre.data (f t)) else 0)
          ≤ k' (pre.data j) (pre.data j) + lap' j - ((i : ℕ) + 1) * logp' j + 2 * ∑ t, (if t < i then k' (pre.data j) (pre.data (f t)) else 0) := by
  have hpos : ∃ j, S j ∧ 0 < pre.weights j := by
    obtain ⟨j, hj⟩ := Finset.card_pos.1 (lt_of_lt_of_le hs hcount)
    exact ⟨j, (Finset.mem_filter.1 hj).2⟩
  have hiff : ∀ j, 0 < (if S j then pre.weights j else 0) ↔ S j ∧ 0 < pre.weights j := fun j => by
    by_cases h : S j <;> simp [h]
  obtain ⟨f, h1, h2, h3⟩ := C15_reduce_greedy big k' u bs hbs size hs ⟨pre.data, fun j => if S j then pre.weights j else 0⟩ (some ⟨lap', logp'⟩) ord hord (by
    unfold PosCount
    simpa only [hiff] using hcount)
  refine ⟨f, (C111_skip hS hbad h0 hpos big u hbs hs ord).trans h1, fun t => (hiff _).1 (h2 t).1.1, h3, fun i j hj hwj hu => ?_⟩
  exact ((h2 i).2 j ⟨(hiff j).2 ⟨hj, hwj⟩, hu⟩).1

namespace NanStein

theorem nanargmin_top {f : Fin n → Ext K} {l : Fin n} (hl : f l ≠ nan) (h : ∀ j, f j = nan ∨ f j = pinf) : nanargmin f = 0 := by
  obtain ⟨i, hi, hv⟩ := nanargmin_avoids (S := fun j => j = 0 ∨ f j ≠ nan) (.inl rfl) (fun j hj => by by_contra hc; exact hj (.inr hc)) ⟨l, hl⟩
  rw [hv]
  unfold nanargmin at hv
  rw [if_neg fun h => hl (h l)] at hv
  rcases hm : (List.finRange n).argmin (fun i => (f i).keyMin) with _ | i'
  · rw [List.argmin_eq_none] at hm
    exact absurd (List.mem_finRange (0 : Fin n)) (by simp [hm])
  · rw [hm] at hv
    have hv' : ((i' : ℕ) : ℤ) = (i : ℕ) := hv
    have hii : i' = i := Fin.ext (by exact_mod_cast hv')
    obtain ⟨-, -, hfirst⟩ := List.mem_argmin_iff.1 hm
    have := hfirst 0 (List.mem_finRange _) (by rcases h 0 with h0 | h0 <;> rcases h i' with h1 | h1 <;> rw [h0, h1] <;> simp [Ext.keyMin])
    rw [List.idxOf_finRange, List.idxOf_finRange] at this
    have h00 : ((0 : Fin n) : ℕ) = 0 := rfl
    have h3 : (i' : ℕ) = 0 := by omega
    rw [← hii, h3]
    rfl

theorem scatterIdx_last : scatterIdx n (-1) = some (⟨n - 1, by have := NeZero.pos n; omega⟩ : Fin n) := by
  have := NeZero.pos n
  unfold scatterIdx
  simp only
  rw [dif_pos (by omega)]
  simp only [Option.some.injEq, Fin.mk.injEq]
  omega

end NanStein

/-- C111, the first row decides, without `unique`: if the kernel between the first row and the others is NaN, the result is the last row in every position, although the
first row only fills the empty coreset from which `reduce` starts. -/
theorem C111_first (big : K) (k : X → X → Ext K) (pre : Data n X K) (h : ∀ j, k (pre.data j) (pre.data 0) = nan) (reg : SteinReg n (Ext K))
    {bs : PyTree (Option ℤ)} (hbs : ValidBlock bs) {size : ℕ} (hs : 0 < size) (hn : size ≤ n) (ord : List (Fin (size + (size - size)))) :
    steinReduceXR big k false bs size pre reg ord = .ok ⟨fun _ => -1, fun _ => 1⟩ := by
  obtain ⟨pen, h1, -, h3⟩ := start big k pre hbs hs
  have hw : ∀ t, (padIndices (⟨fun _ => 0, fun _ => 0⟩ : Data size ℤ K) size).weights t = 0 := by
    intro t
    refine Fin.addCases (fun a => ?_) (fun a => ?_) t <;> simp [padIndices, zeroPad]
  simp only [steinReduceXR, initialCoresubset, gt_iff_lt, not_lt.2 hn, if_false, greedySelectionX, h1, Except.ok.injEq, Data.mk.injEq, and_true]
  have key := forLoop_inv (P := fun i (s : GreedyState n (size + (size - size)) K) => (∀ t : Fin (size + (size - size)), t.val < i → s.idx t = -1) ∧ ∀ j, s.pen j = nan) size
    (fun i => greedyBodyX k pre.data pre.weights false ord (padIndices (⟨fun _ => 0, fun _ => 0⟩ : Data size ℤ K) size).weights
      (steinSelectX (fun j => k (pre.data j) (pre.data j)) reg.lap reg.logp) (i.castLE (out_le_padded size size)))
    ⟨(padIndices (⟨fun _ => 0, fun _ => 0⟩ : Data size ℤ K) size).data, pen, 0⟩ ⟨fun t ht => by omega, fun j => h3 j (h j)⟩ (fun i s ⟨e1, e2⟩ => by
      have hsub : subtractOwnX k pre.data (padIndices (⟨fun _ => 0, fun _ => 0⟩ : Data size ℤ K) size).weights (i.castLE (out_le_padded size size)) s = s.pen := by
        simp [subtractOwnX, hw]
      simp only [greedyBodyX, hsub, masked_fresh _ false ord _ hw, e2, ite_self, Bool.false_eq_true, if_false, nan_add, implies_true, and_true]
      have hsel : ∀ z, steinSelectX (fun j => k (pre.data j) (pre.data j)) reg.lap reg.logp (i.castLE (out_le_padded size size) : ℕ) (fun _ => nan) z = -1 :=
        fun z => nanargmin_all fun j => by simp only [mul_nan, add_nan, nan_add, nan_sub]
      intro t ht
      rw [hsel]
      by_cases hti : t = i.castLE (out_le_padded size size)
      · rw [hti, Function.update_self]
      · rw [Function.update_of_ne hti]
        have : t.val ≠ i.val := fun h' => hti (Fin.ext h')
        exact e1 t (by omega))
  exact funext fun t => key.1 _ t.2

/-- C111, the first row decides, with `unique`: the last row and the first, the one that is not a number, in turn. -/
theorem C111_first_unique (big : K) (k : X → X → Ext K) (pre : Data n X K) (h : ∀ j, k (pre.data j) (pre.data 0) = nan) (reg : SteinReg n (Ext K)) (l : Fin n) (hl : (l : ℕ) = n - 1)
    (hk : ∃ v, k (pre.data l) (pre.data l) = fin v) (hlap : ∃ v, reg.lap l = fin v) (hlogp : ∃ v, reg.logp l = fin v) (hwl : 0 < pre.weights l)
    {bs : PyTree (Option ℤ)} (hbs : ValidBlock bs) {size : ℕ} (hs : 0 < size) (hn : size ≤ n) (ord : List (Fin (size + (size - size)))) :
    steinReduceXR big k true bs size pre reg ord = .ok ⟨fun t => if (t : ℕ) % 2 = 0 then -1 else 0, fun _ => 1⟩ := by
  obtain ⟨pen, h1, -, h3⟩ := start big k pre hbs hs
  have hl0 : l ≠ 0 := by
    rintro rfl
    obtain ⟨v, hv⟩ := hk
    rw [h] at hv
    cases hv
  have hlast : (⟨n - 1, by have := NeZero.pos n; omega⟩ : Fin n) = l := Fin.ext hl.symm
  have hw : ∀ t, (padIndices (⟨fun _ => 0, fun _ => 0⟩ : Data size ℤ K) size).weights t = 0 := by
    intro t
    refine Fin.addCases (fun a => ?_) (fun a => ?_) t <;> simp [padIndices, zeroPad]
  simp only [steinReduceXR, initialCoresubset, gt_iff_lt, not_lt.2 hn, if_false, greedySelectionX, h1, Except.ok.injEq, Data.mk.injEq, and_true]
  have key := forLoop_inv (P := fun i (s : GreedyState n (size + (size - size)) K) => (∀ t : Fin (size + (size - size)), t.val < i → s.idx t = if (t : ℕ) % 2 = 0 then -1 else 0) ∧
      (∀ j, j ≠ 0 → j ≠ l → s.pen j = nan) ∧ s.pen l = if i % 2 = 0 then nan else pinf) size
    (fun i => greedyBodyX k pre.data pre.weights true ord (padIndices (⟨fun _ => 0, fun _ => 0⟩ : Data size ℤ K) size).weights
      (steinSelectX (fun j => k (pre.data j) (pre.data j)) reg.lap reg.logp) (i.castLE (out_le_padded size size)))
    ⟨(padIndices (⟨fun _ => 0, fun _ => 0⟩ : Data size ℤ K) size).data, pen, 0⟩ ⟨fun t ht => by omega, fun j _ _ => h3 j (h j), h3 l (h l)⟩ (fun i s ⟨e1, e2, e3⟩ => by
      have hsub : subtractOwnX k pre.data (padIndices (⟨fun _ => 0, fun _ => 0⟩ : Data size ℤ K) size).weights (i.castLE (out_le_padded size size)) s = s.pen := by
        simp [subtractOwnX, hw]
      simp only [greedyBodyX, hsub, masked_fresh _ true ord _ hw, if_true, hw, gt_iff_lt, lt_irrefl, if_false]
      set obj : Fin n → Ext K := fun j => ((k (pre.data j) (pre.data j) + fin 2 * (if 0 < pre.weights j then s.pen j else nan)) + reg.lap j)
        - fin (((i.castLE (out_le_padded size size) : ℕ) : K) + 1) * reg.logp j with hobj
      have hother : ∀ j, j ≠ l → obj j = nan := fun j hj => by
        by_cases hj0 : j = 0
        · rw [hj0, hobj]
          simp only [h, nan_add, nan_sub]
        · simp only [hobj, e2 j hj0 hj, ite_self, mul_nan, add_nan, nan_add, nan_sub]
      have hsel : steinSelectX (fun j => k (pre.data j) (pre.data j)) reg.lap reg.logp (i.castLE (out_le_padded size size) : ℕ) (fun j => if 0 < pre.weights j then s.pen j else nan) (s.size + 1)
          = if (i : ℕ) % 2 = 0 then -1 else 0 := by
        change nanargmin obj = _
        split_ifs with hi
        · refine nanargmin_all fun j => ?_
          by_cases hj : j = l
          · rw [hj, hobj]
            simp only [e3, if_pos hi, ite_self, mul_nan, add_nan, nan_add, nan_sub]
          · exact hother j hj
        · have hol : obj l = pinf := by
            obtain ⟨v1, hv1⟩ := hk
            obtain ⟨v2, hv2⟩ := hlap
            obtain ⟨v3, hv3⟩ := hlogp
            simp only [hobj, if_pos hwl, e3, if_neg hi, hv1, hv2, hv3, fin_mul_fin]
            have h2 : (fin 2 * pinf : Ext K) = pinf := by
              change Ext.signMul 2 pinf = pinf
              simp [Ext.signMul]
            rw [h2]
            rfl
          exact nanargmin_top (l := l) (by rw [hol]; intro hc; cases hc) fun j => by
            by_cases hj : j = l
            · exact .inr (by rw [hj, hol])
            · exact .inl (hother j hj)
      rw [hsel]
      have hg0 : (gatherIdx n (0 : ℤ) : Fin n) = 0 := gatherIdx_coe (0 : Fin n)
      have hs0 : (scatterIdx n (0 : ℤ) : Option (Fin n)) = some 0 := scatterIdx_coe (0 : Fin n)
      refine ⟨fun t ht => ?_, fun j hj0 hjl => ?_, ?_⟩
      · by_cases hti : t = i.castLE (out_le_padded size size)
        · rw [hti, Function.update_self]
          rfl
        · rw [Function.update_of_ne hti]
          have : t.val ≠ i.val := fun h' => hti (Fin.ext h')
          exact e1 t (by omega)
      · split_ifs with hi
        · simp only [setAt, scatterIdx_last, hlast, Function.update_of_ne hjl, e2 j hj0 hjl, nan_add]
        · simp only [setAt, hs0, Function.update_of_ne hj0, e2 j hj0 hjl, nan_add]
      · split_ifs with hi hi' hi'
        · omega
        · simp only [setAt, scatterIdx_last, hlast, Function.update_self]
        · simp only [setAt, hs0, Function.update_of_ne hl0, kernelColumnX, hg0, h, add_nan]
        · omega)
  exact funext fun t => key.1 _ t.2

/-- C111, no density estimate: if the Laplace corrections or the log densities of all rows are NaN (a NaN row spoils the estimate for all, and so does a covariance without
inverse), the result is the last row in every position, whatever the kernel. -/
theorem C111_density (big : K) (k : X → X → Ext K) (pre : Data n X K) (reg : SteinReg n (Ext K)) (h : ∀ j, Spoiled k pre.data reg.lap reg.logp j) (u : Bool)
    {bs : PyTree (Option ℤ)} (hbs : ValidBlock bs) {size : ℕ} (hs : 0 < size) (hn : size ≤ n) (ord : List (Fin (size + (size - size)))) :
    steinReduceXR big k u bs size pre reg ord = .ok ⟨fun _ => -1, fun _ => 1⟩ ∧ ((gatherIdx n (-1) : Fin n) : ℕ) = n - 1 := by
  constructor
  · simp only [steinReduceXR, initialCoresubset, gt_iff_lt, not_lt.2 hn, if_false]
    refine greedySelectionX_const big k pre hbs u (v := -1) (fun i pen s => nanargmin_all fun j => ?_) hs _ _
    rcases h j with h | h | h
    · simp only [h, nan_add, nan_sub]
    · simp only [h, add_nan, nan_sub]
    · simp only [h, mul_nan, sub_nan]
  · have := NeZero.pos n
    simp only [gatherIdx]
    omega

/-- C111, the regularisation: a negative multiplier, zero included, does not help against a density that is NaN: `0 * nan` is NaN; only `regularise=False` does. -/
theorem C111_lambda (lambda : Option K) (size : ℕ) (lap logpdf : Fin n → Ext K) (j : Fin n) (h : logpdf j = nan) :
    (steinRegX true lambda size lap logpdf).logp j = nan ∧ (steinRegX false lambda size lap logpdf).logp j = fin 0 := by
  simp [steinRegX, h]

/-- C111, the parameters: a density that is a number is multiplied by `lambda`, by default the inverse of the coreset size; the second derivatives go in as they are. -/
theorem C111_default (lambda : Option K) (size : ℕ) (lap logpdf : Fin n → Ext K) (j : Fin n) (v : K) (h : logpdf j = fin v) :
    (steinRegX true none size lap logpdf).logp j = fin (v / size) ∧ (∀ l, (steinRegX true (some l) size lap logpdf).logp j = fin (l * v)) ∧
      (steinRegX true lambda size lap logpdf).lap = lap ∧ (steinRegX false lambda size lap logpdf).lap j = fin 0 := by
  simp [steinRegX, h, fin_mul_fin, div_eq_inv_mul]

example := C111_default (K := ℚ) (n := 2) (some 3) 4 (fun _ => nan) (fun _ => fin 6) 1 6 rfl

/-- C111, numbers: with a regularisation by numbers this is the model of C98. -/
theorem C111_numbers (big : K) (k : X → X → Ext K) (pre : Data n X K) (r : SteinReg n K) (u : Bool) (bs : PyTree (Option ℤ)) (size : ℕ) (ord : List (Fin (size + (size - size)))) :
    steinReduceXR big k u bs size pre ⟨fun j => fin (r.lap j), fun j => fin (r.logp j)⟩ ord = steinReduceX big k u bs size pre (some r) ord := by
  unfold steinReduceXR steinReduceX steinSelectX
  simp only [fin_mul_fin]
  cases (initialCoresubset 0 size n : Except Err (Data size ℤ K)) <;> rfl

end

/-! ## Cases -/

namespace NanSteinExamples

open Spec

/-- Three rows; the kernel is NaN at the row 5. -/
def kern (a b : ℚ) : Ext ℚ := if a = 5 ∨ b = 5 then nan else fin (a * b + 1)

def reg0 : SteinReg 3 (Ext ℚ) := ⟨fun _ => fin 0, fun _ => fin 0⟩

/-- The bad row in the middle. -/
def mid : Data 3 ℚ ℚ := ⟨![1, 5, 2], ![1, 1, 1]⟩

theorem sound : Sound kern (fun a b => a * b + 1) mid.data reg0.lap reg0.logp (fun _ => 0) (fun _ => 0) fun j => j ≠ 1 := by
  refine ⟨?_, fun i hi => ⟨1, ?_⟩, fun _ _ => rfl, fun _ _ => rfl⟩
  · decide +kernel
  · revert i
    decide +kernel

theorem spoiled (j : Fin 3) (h : ¬ j ≠ 1) : Spoiled kern mid.data reg0.lap reg0.logp j := by
  rw [not_not.1 h]
  exact .inl (by decide +kernel)

open Classical in
example := C111_skip sound spoiled (by decide) ⟨0, by decide, by decide +kernel⟩ 1000 true (bs := .leaf none) (.inl rfl) (size := 2) (by norm_num) [0, 1]

open Classical in
/-- The two sound rows are found. -/
example : ∃ f : Fin 2 → Fin 3, steinReduceXR 1000 kern true (.leaf none) 2 mid reg0 [0, 1] = .ok ⟨fun t => (f t : ℤ), fun _ => 1⟩ ∧ (∀ t, f t ≠ 1) ∧ Function.Injective f := by
  obtain ⟨f, h1, h2, h3, -⟩ := C111_greedy sound spoiled (by decide) 1000 true (bs := .leaf none) (.inl rfl) (size := 2) (by norm_num) [0, 1] (by decide) (by
    refine le_trans (b := ({0, 2} : Finset (Fin 3)).card) (by decide) (Finset.card_le_card fun j hj => ?_)
    have h : ∀ j ∈ ({0, 2} : Finset (Fin 3)), j ≠ 1 ∧ 0 < mid.weights j := by decide +kernel
    exact (@Finset.mem_filter _ _ (_) _ _).2 ⟨Finset.mem_univ _, h j hj⟩)
  exact ⟨f, h1, fun t => (h2 t).1, h3 rfl⟩

example := C111_first 1000 kern (⟨![5, 1, 2], ![1, 1, 1]⟩ : Data 3 ℚ ℚ) (by decide +kernel) reg0 (bs := .leaf none) (.inl rfl) (size := 2) (by norm_num) (by norm_num) [0, 1]

/-- The bad row first: it is itself part of the coreset. -/
example : steinReduceXR 1000 kern true (.leaf none) 3 (⟨![5, 1, 2], ![1, 1, 1]⟩ : Data 3 ℚ ℚ) reg0 [0, 1, 2] = .ok ⟨![-1, 0, -1], fun _ => 1⟩ := by
  rw [C111_first_unique 1000 kern (⟨![5, 1, 2], ![1, 1, 1]⟩ : Data 3 ℚ ℚ) (by decide +kernel) reg0 2 rfl ⟨5, by decide +kernel⟩ ⟨0, rfl⟩ ⟨0, rfl⟩ (by decide +kernel) (.inl rfl) (by norm_num) (by norm_num)]
  congr 2
  funext t
  fin_cases t <;> rfl

example := C111_density 1000 (fun a b : ℚ => fin (a * b)) (⟨![3, 1, 2], ![1, 1, 1]⟩ : Data 3 ℚ ℚ) ⟨fun _ => fin 0, fun _ => nan⟩ (fun _ => .inr (.inr rfl)) true (bs := .leaf none) (.inl rfl)
  (size := 2) (by norm_num) (by norm_num) [0, 1]

example := C111_lambda (n := 3) (some (0 : ℚ)) 2 (fun _ => fin 0) ![nan, fin 1, fin 2] 0 rfl

example := C111_numbers (1000 : ℚ) kern mid ⟨![1, 2, 3], ![0, 1, 0]⟩ true (.leaf none) 2 [0, 1]

end NanSteinExamples

end Coreax
