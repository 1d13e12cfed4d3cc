import Verif.Model.ExtKernel
import Verif.Lemmas.Basic
import Verif.Lemmas.Mean
import Mathlib.Algebra.BigOperators.Group.Finset.Basic

/-!
# Sums and means of values that need not be numbers
-/

set_option linter.unusedSectionVars false

namespace Coreax

namespace Ext

variable {K : Type*} [Field K] [LinearOrder K]

theorem zero_def : (0 : Ext K) = fin 0 := rfl

@[simp] theorem nan_mul (y : Ext K) : (nan * y : Ext K) = nan := by cases y <;> rfl
@[simp] theorem mul_nan (y : Ext K) : (y * nan : Ext K) = nan := by cases y <;> rfl
@[simp] theorem nan_sub (y : Ext K) : (nan - y : Ext K) = nan := by cases y <;> rfl
@[simp] theorem sub_nan (y : Ext K) : (y - nan : Ext K) = nan := by cases y <;> rfl
@[simp] theorem neg_nan : (-nan : Ext K) = nan := rfl
@[simp] theorem fin0_div_fin0 : (fin 0 / fin 0 : Ext K) = nan := by simp [HDiv.hDiv, Div.div, div]

/-- `fin` as a homomorphism. -/
def finHom : K →+ Ext K where
  toFun := fin
  map_zero' := rfl
  map_add' _ _ := rfl

theorem finsetSum_fin {ι : Type*} (s : Finset ι) (f : ι → K) : ∑ i ∈ s, fin (f i) = fin (∑ i ∈ s, f i) :=
  (map_sum finHom f s).symm

theorem finsetSum_nan {ι : Type*} {s : Finset ι} {f : ι → Ext K} {i : ι} (hi : i ∈ s) (h : f i = nan) : ∑ i ∈ s, f i = nan := by
  classical
  rw [← Finset.add_sum_erase s f hi, h, nan_add]

theorem listSum_fin (l : List K) : (l.map fin).sum = fin l.sum := (map_list_sum finHom l).symm

theorem listSum_nan {l : List (Ext K)} (h : nan ∈ l) : l.sum = nan := by
  induction l with
  | nil => simp at h
  | cons a l ih =>
    rw [List.sum_cons]
    rcases List.mem_cons.1 h with h | h
    · rw [← h, nan_add]
    · rw [ih h, add_nan]

end Ext

open Ext

section
variable {X K : Type*} [Zero X] [Field K] [LinearOrder K]

/-- A scan over states and outputs that correspond. -/
theorem scan_map {σ σ' α β β' : Type*} (f : σ' → α → σ' × β') (g : σ → α → σ × β) (φ : σ → σ') (ψ : β → β') (l : List α)
    (h : ∀ s, ∀ a ∈ l, f (φ s) a = (φ (g s a).1, ψ (g s a).2)) (s : σ) :
    scan f (φ s) l = (φ (scan g s l).1, (scan g s l).2.map ψ) := by
  induction l generalizing s with
  | nil => rfl
  | cons a l ih =>
    have h1 := h s a (List.mem_cons_self ..)
    have h2 := ih (fun s b hb => h s b (List.mem_cons_of_mem _ hb)) (g s a).1
    simp only [scan, h1, h2, List.map_cons]

theorem scan_nan {α β : Type*} (f : Ext K → α → Ext K × β) (l : List α) (h0 : ∀ a, (f nan a).1 = nan) {a : α} (ha : a ∈ l)
    (h : ∀ s, (f s a).1 = nan) (s : Ext K) : (scan f s l).1 = nan := by
  have hn : ∀ l : List α, (scan f nan l).1 = nan := fun l => by
    induction l with
    | nil => rfl
    | cons b l ih => simp only [scan, h0, ih]
  induction l generalizing s with
  | nil => simp at ha
  | cons b l ih =>
    simp only [scan]
    rcases List.mem_cons.1 ha with rfl | hb
    · rw [h, hn]
    · exact ih hb _

/-- The column of a pair of blocks. -/
def colOfX (k : X → X → Ext K) {Bx By : ℕ} (xb : Fin Bx → X × K) (yb : Fin By → X × K) (r : Fin Bx) : Ext K :=
  ∑ c, k (xb r).1 (yb c).1 * fin (yb c).2

/-- Rows the double scan visits: the data, and zero if there is padding. -/
def Visited {n : ℕ} (x : Fin n → X) (b : Option ℤ) (a : X) : Prop :=
  (∃ i, a = x i) ∨ (a = 0 ∧ ¬ effBlock n b ∣ n)

theorem numBlocks_dvd {n B : ℕ} (hB : 0 < B) : numBlocks n B * B = n ↔ B ∣ n := by
  refine ⟨fun h => ⟨numBlocks n B, by rw [mul_comm, h]⟩, fun ⟨c, hc⟩ => ?_⟩
  have : numBlocks n B = c := by
    unfold numBlocks
    rw [hc, Nat.add_sub_assoc hB, Nat.mul_add_div hB, Nat.div_eq_of_lt (by omega), add_zero]
  rw [this, hc, mul_comm]

theorem visited_padded {n : ℕ} (x : Data n X K) (b : Option ℤ) (hn : 0 < n) {j : ℕ} (hj : j < numBlocks n (effBlock n b) * effBlock n b) : Visited x.data b (paddedRow x j).1 := by
  by_cases h : j < n
  · exact .inl ⟨⟨j, h⟩, by simp [paddedRow, h]⟩
  · refine .inr ⟨by simp [paddedRow, h], fun hd => ?_⟩
    have hB : 0 < effBlock n b := Nat.pos_of_ne_zero (fun h => hn.ne' (effBlock_eq_zero.1 h))
    rw [(numBlocks_dvd hB).2 hd] at hj
    exact h hj

theorem padded_of_visited {n : ℕ} (x : Data n X K) (b : Option ℤ) (hn : 0 < n) {a : X} (ha : Visited x.data b a) :
    ∃ j, j < numBlocks n (effBlock n b) * effBlock n b ∧ (paddedRow x j).1 = a := by
  have hB : 0 < effBlock n b := Nat.pos_of_ne_zero (fun h => hn.ne' (effBlock_eq_zero.1 h))
  have hle := le_numBlocks_mul n (effBlock n b) hB
  rcases ha with ⟨i, rfl⟩ | ⟨rfl, h⟩
  · exact ⟨i, lt_of_lt_of_le i.2 hle, by simp [paddedRow]⟩
  · refine ⟨n, lt_of_le_of_ne hle fun h' => h ((numBlocks_dvd hB).1 h'.symm), by simp [paddedRow]⟩

theorem index_lt {nb B i r : ℕ} (hi : i < nb) (hr : r < B) : i * B + r < nb * B :=
  calc i * B + r < i * B + B := by omega
    _ = (i + 1) * B := by ring
    _ ≤ nb * B := Nat.mul_le_mul_right _ hi

/-- If all values that are visited are numbers the mean is that of the numbers. -/
theorem columnMeanX_fin (big : K) (k : X → X → Ext K) (k' : X → X → K) {n m : ℕ} (x : Data n X K) (y : Data m X K) (bx bY : Option ℤ)
    (h : ∀ a b, Visited x.data bx a → Visited y.data bY b → k a b = fin (k' a b)) :
    columnMeanX big k x y bx bY = (match columnMean big k' x y bx bY with | .error e => .error e | .ok r => .ok (fin r.1, r.2.map fin)) := by
  rcases Nat.eq_zero_or_pos n with rfl | hn
  · simp only [columnMeanX, columnMean, blockDataConvert_zero]
  rcases Nat.eq_zero_or_pos m with rfl | hm
  · simp only [columnMeanX, columnMean, blockDataConvert_zero, blockDataConvert_of_pos big hn]
  simp only [columnMeanX, columnMean, blockDataConvert_of_pos big hn, blockDataConvert_of_pos big hm]
  set Bx := effBlock n bx with hBx
  set By := effBlock m bY with hBy
  have key : ∀ (s : K), ∀ xb ∈ (List.range (numBlocks n Bx)).map (fun blk (r : Fin Bx) => paddedRow (x.normalizePZ big) (blk * Bx + r)),
      blockSumX k ((List.range (numBlocks m By)).map (fun blk (r : Fin By) => paddedRow (y.normalizePZ big) (blk * By + r))) (fin s) xb
        = (fin (blockSum k' ((List.range (numBlocks m By)).map (fun blk (r : Fin By) => paddedRow (y.normalizePZ big) (blk * By + r))) s xb).1,
          fun i => fin ((blockSum k' ((List.range (numBlocks m By)).map (fun blk (r : Fin By) => paddedRow (y.normalizePZ big) (blk * By + r))) s xb).2 i)) := by
    intro s xb hxb
    obtain ⟨i, hi, rfl⟩ := List.mem_map.1 hxb
    have hi' := List.mem_range.1 hi
    have h2 : ∀ (s : K), ∀ yb ∈ (List.range (numBlocks m By)).map (fun blk (r : Fin By) => paddedRow (y.normalizePZ big) (blk * By + r)),
        sliceSumX k (fun r : Fin Bx => paddedRow (x.normalizePZ big) (i * Bx + r)) (fin s) yb
          = (fin (sliceSum k' (fun r : Fin Bx => paddedRow (x.normalizePZ big) (i * Bx + r)) s yb).1,
            fun t => fin ((sliceSum k' (fun r : Fin Bx => paddedRow (x.normalizePZ big) (i * Bx + r)) s yb).2 t)) := by
      intro s yb hyb
      obtain ⟨j, hj, rfl⟩ := List.mem_map.1 hyb
      have hj' := List.mem_range.1 hj
      have h3 : ∀ (r : Fin Bx) (c : Fin By), k (paddedRow (x.normalizePZ big) (i * Bx + r)).1 (paddedRow (y.normalizePZ big) (j * By + c)).1
          = fin (k' (paddedRow (x.normalizePZ big) (i * Bx + r)).1 (paddedRow (y.normalizePZ big) (j * By + c)).1) := fun r c =>
        h _ _ (visited_padded (x.normalizePZ big) bx hn (index_lt hi' r.2)) (visited_padded (y.normalizePZ big) bY hm (index_lt hj' c.2))
      simp only [sliceSumX, sliceSum, h3, fin_mul_fin, finsetSum_fin, fin_add_fin]
    have h4 := scan_map (sliceSumX k (fun r : Fin Bx => paddedRow (x.normalizePZ big) (i * Bx + r))) (sliceSum k' (fun r : Fin Bx => paddedRow (x.normalizePZ big) (i * Bx + r)))
      fin (fun c t => fin (c t)) _ h2 s
    simp only [blockSumX, blockSum, h4, List.map_map]
    refine Prod.ext rfl (funext fun t => ?_)
    dsimp only
    rw [← listSum_fin, List.map_map]
    rfl
  have h5 := scan_map _ _ fin (fun (c : Fin Bx → K) t => fin (c t)) _ key 0
  rw [zero_def, h5]
  refine congrArg Except.ok (Prod.ext rfl ?_)
  simp only [List.map_map, List.map_take, List.map_flatten]
  refine congrArg (List.take n) (congrArg List.flatten (List.map_congr_left fun c _ => ?_))
  simp [List.map_ofFn, Function.comp_def]

/-- One value that is not a number, at a row of the data or of the padding, whatever its weight: the mean is not a number. -/
theorem columnMeanX_nan (big : K) (k : X → X → Ext K) {n m : ℕ} (hn : 0 < n) (hm : 0 < m) (x : Data n X K) (y : Data m X K) (bx bY : Option ℤ)
    {a b : X} (ha : Visited x.data bx a) (hb : Visited y.data bY b) (h : k a b = nan) :
    ∃ l, columnMeanX big k x y bx bY = .ok (nan, l) := by
  simp only [columnMeanX, blockDataConvert_of_pos big hn, blockDataConvert_of_pos big hm]
  set Bx := effBlock n bx with hBx
  set By := effBlock m bY with hBy
  have hBx0 : 0 < Bx := Nat.pos_of_ne_zero (fun h => hn.ne' (effBlock_eq_zero.1 h))
  have hBy0 : 0 < By := Nat.pos_of_ne_zero (fun h => hm.ne' (effBlock_eq_zero.1 h))
  obtain ⟨i, hi, hi'⟩ := padded_of_visited (x.normalizePZ big) bx hn ha
  obtain ⟨j, hj, hj'⟩ := padded_of_visited (y.normalizePZ big) bY hm hb
  have hi2 : i / Bx < numBlocks n Bx := Nat.div_lt_of_lt_mul (by rwa [mul_comm])
  have hj2 : j / By < numBlocks m By := Nat.div_lt_of_lt_mul (by rwa [mul_comm])
  have ei : i / Bx * Bx + i % Bx = i := Nat.div_add_mod' i Bx
  have ej : j / By * By + j % By = j := Nat.div_add_mod' j By
  refine ⟨_, congrArg Except.ok (Prod.ext ?_ rfl)⟩
  refine scan_nan _ _ (fun xb => ?_) (a := fun r : Fin Bx => paddedRow (x.normalizePZ big) (i / Bx * Bx + r)) (List.mem_map.2 ⟨i / Bx, List.mem_range.2 hi2, rfl⟩) (fun s => ?_) _
  · simp only [blockSumX]
    have : ∀ l : List (Fin By → X × K), (scan (sliceSumX k xb) nan l).1 = nan := fun l => by
      induction l with
      | nil => rfl
      | cons c l ih => simp only [scan, sliceSumX, nan_add]; exact ih
    exact this _
  · simp only [blockSumX]
    refine scan_nan _ _ (fun yb => by simp [sliceSumX]) (a := fun r : Fin By => paddedRow (y.normalizePZ big) (j / By * By + r)) (List.mem_map.2 ⟨j / By, List.mem_range.2 hj2, rfl⟩) (fun s => ?_) _
    simp only [sliceSumX]
    rw [finsetSum_nan (i := (⟨i % Bx, Nat.mod_lt _ hBx0⟩ : Fin Bx)) (Finset.mem_univ _), add_nan]
    rw [finsetSum_nan (i := (⟨j % By, Nat.mod_lt _ hBy0⟩ : Fin By)) (Finset.mem_univ _), mul_nan]
    simp only [ei, ej, hi', hj', h, nan_mul]

/-- The entry of a row is not a number as soon as one of its values is not. -/
theorem columnMeanX_row (big : K) (k : X → X → Ext K) {n m : ℕ} (hn : 0 < n) (hm : 0 < m) (x : Data n X K) (y : Data m X K) (bx bY : Option ℤ) :
    ∃ s, columnMeanX big k x y bx bY = .ok (s, List.ofFn fun i => ∑ j ∈ Finset.range (numBlocks m (effBlock m bY) * effBlock m bY),
      k (x.data i) (paddedRow (y.normalizePZ big) j).1 * fin (paddedRow (y.normalizePZ big) j).2) := by
  simp only [columnMeanX, blockDataConvert_of_pos big hn, blockDataConvert_of_pos big hm]
  set Bx := effBlock n bx with hBx
  set By := effBlock m bY with hBy
  set x' := x.normalizePZ big with hx'
  set y' := y.normalizePZ big with hy'
  have hBx0 : 0 < Bx := Nat.pos_of_ne_zero (fun h => hn.ne' (effBlock_eq_zero.1 h))
  let col : X → Ext K := fun z => ∑ j ∈ Finset.range (numBlocks m By * By), k z (paddedRow y' j).1 * fin (paddedRow y' j).2
  have hsnd := scan_snd_of_indep
    (blockSumX k ((List.range (numBlocks m By)).map (fun blk (r : Fin By) => paddedRow y' (blk * By + r))))
    (fun (xb : Fin Bx → X × K) r => col (xb r).1)
    (fun s a => by
      funext r
      simp only [blockSumX]
      rw [scan_snd_of_indep _ (fun yb => colOfX k a yb) (fun s b => rfl)]
      simp only [List.map_map, Function.comp_def, colOfX]
      exact sum_blocks (fun j => k (a r).1 (paddedRow y' j).1 * fin (paddedRow y' j).2) (numBlocks m By) By)
    (0 : Ext K) ((List.range (numBlocks n Bx)).map (fun blk (r : Fin Bx) => paddedRow x' (blk * Bx + r)))
  refine ⟨_, congrArg Except.ok (Prod.ext rfl ?_)⟩
  refine (congrArg (fun l : List (Fin Bx → Ext K) => (l.map List.ofFn).flatten.take n) hsnd).trans ?_
  simp only [List.map_map]
  rw [show (List.ofFn ∘ (fun (xb : Fin Bx → X × K) r => col (xb r).1) ∘
      fun blk (r : Fin Bx) => paddedRow x' (blk * Bx + r))
    = fun blk => List.ofFn (fun r : Fin Bx => col (paddedRow x' (blk * Bx + r)).1) from rfl,
    flatten_blocks (fun j => col (paddedRow x' j).1), ← List.map_take, List.take_range,
    Nat.min_eq_left (le_numBlocks_mul n Bx hBx0), List.ofFn_eq_map, ← List.map_coe_finRange_eq_range,
    List.map_map]
  refine List.map_congr_left (fun i _ => ?_)
  simp [paddedRow, x', Data.normalizePZ, col]

end

end Coreax
