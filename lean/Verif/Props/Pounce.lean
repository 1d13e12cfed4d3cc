import Verif.Model.Pounce
import Verif.Props.Herding
import Verif.Props.Metrics
import Verif.Props.Kernel
import Verif.Props.MapReduceCases
import Verif.Props.Median
import Mathlib.Data.Fin.Tuple.Sort

/-!
# C84: the summary of a video
-/

namespace Coreax

namespace Spec

/-- `shown` is a summary of the video `raw` by the frames `f`: in the order of time, every chosen frame as often as it is chosen. -/
def Summary {F : Type} {n m : ℕ} (raw : Fin n → F) (f : Fin m → Fin n) (shown : List F) : Prop :=
  ∃ g : Fin m → Fin n, Monotone g ∧ (∃ σ : Equiv.Perm (Fin m), g = f ∘ σ) ∧ shown = List.ofFn fun t => raw (g t)

/-- The pounce is in frames 63 to 84. -/
def Action (j : ℕ) : Prop := 63 ≤ j ∧ j ≤ 84

/-- A bar of height one exactly at the frames in question. -/
def Bars {len : ℕ} (y : Fin len → ℕ) (at_ : ℕ → Prop) : Prop := ∀ j : Fin len, (at_ j → y j = 1) ∧ (¬ at_ j → y j = 0)

end Spec

namespace Pounce

theorem npIndex_coe {n : ℕ} (j : Fin n) : npIndex n (j : ℤ) = .ok j := by
  unfold npIndex
  rw [dif_pos ⟨by omega, by have := j.2; omega⟩]
  rfl

theorem npIndex_large {n : ℕ} {i : ℤ} (h : (n : ℤ) ≤ i) : npIndex n i = .error .indexError := by
  unfold npIndex
  rw [dif_neg (by omega), dif_neg (by omega)]

end Pounce

open Pounce in
/-- C84: an index of NumPy is accepted exactly from `-n` to `n - 1`, and means the row congruent to it. -/
theorem C84_index (n : ℕ) (i : ℤ) (j : Fin n) : npIndex n i = .ok j ↔ -(n : ℤ) ≤ i ∧ i < n ∧ ((j : ℕ) : ℤ) = i % n := by
  have hj := j.2
  unfold npIndex
  by_cases h : 0 ≤ i ∧ i < n
  · rw [dif_pos h, Int.emod_eq_of_lt h.1 h.2]
    simp only [Except.ok.injEq, Fin.ext_iff]
    omega
  · rw [dif_neg h]
    by_cases h' : -(n : ℤ) ≤ i ∧ i < 0
    · have : i % n = i + n := by rw [← Int.add_emod_right, Int.emod_eq_of_lt (by omega) (by omega)]
      rw [dif_pos h', this]
      simp only [Except.ok.injEq, Fin.ext_iff]
      omega
    · rw [dif_neg h']
      simp only [reduceCtorEq, false_iff]
      omega

example : npIndex 3 (-3) = .ok 0 ∧ npIndex 3 (-4) = .error .indexError := by decide

namespace Pounce

theorem npIndices_coe {n : ℕ} : ∀ js : List (Fin n), npIndices n (js.map fun j : Fin n => ((j : ℕ) : ℤ)) = .ok js
  | [] => rfl
  | j :: js => by
    simp only [List.map_cons, npIndices, npIndex_coe, npIndices_coe js]
    rfl

theorem npIndices_large {n : ℕ} : ∀ is : List ℤ, (∀ i ∈ is, 0 ≤ i) → (∃ i ∈ is, (n : ℤ) ≤ i) →
    npIndices n is = .error .indexError
  | [], _, h => by simp at h
  | i :: is, h0, h => by
    by_cases hi : (n : ℤ) ≤ i
    · simp only [npIndices, npIndex_large hi]
      rfl
    · have h0i := h0 i (by simp)
      have : npIndices n is = .error .indexError := npIndices_large is (fun i' hi' => h0 i' (by simp [hi'])) (by
        obtain ⟨i', hm, hle⟩ := h
        rcases List.mem_cons.1 hm with rfl | hm
        · exact absurd hle hi
        · exact ⟨i', hm, hle⟩)
      have h1 : npIndex n i = .ok ⟨i.toNat, by omega⟩ := by unfold npIndex; rw [dif_pos ⟨h0i, by omega⟩]
      simp only [npIndices, this, h1]
      rfl

theorem exists_fin {n : ℕ} : ∀ is : List ℤ, (∀ i ∈ is, 0 ≤ i ∧ i < n) → ∃ js : List (Fin n), is = js.map fun j : Fin n => ((j : ℕ) : ℤ)
  | [], _ => ⟨[], rfl⟩
  | i :: is, h => by
    obtain ⟨js, hj⟩ := exists_fin is fun i' hi' => h i' (by simp [hi'])
    have := h i (by simp)
    exact ⟨⟨i.toNat, by omega⟩ :: js, by rw [List.map_cons, ← hj]; congr 1; show i = ((i.toNat : ℕ) : ℤ); omega⟩

/-- Setting ones. -/
theorem npSetOnes_ok {n : ℕ} (is : List ℤ) (h : ∀ i ∈ is, 0 ≤ i ∧ i < n) :
    npSetOnes n is = .ok fun t => if (t : ℤ) ∈ is then 1 else 0 := by
  obtain ⟨js, rfl⟩ := exists_fin is h
  unfold npSetOnes
  rw [npIndices_coe]
  show Except.ok _ = _
  congr 1
  funext t
  have : t ∈ js ↔ (t : ℤ) ∈ js.map fun j : Fin n => ((j : ℕ) : ℤ) := by
    simp only [List.mem_map]
    constructor
    · exact fun h => ⟨t, h, rfl⟩
    · rintro ⟨a, ha, hat⟩
      have : a = t := Fin.ext (by omega)
      rwa [← this]
  simp only [this]

theorem npSetOnes_large {n : ℕ} (is : List ℤ) (h0 : ∀ i ∈ is, 0 ≤ i) (h : ∃ i ∈ is, (n : ℤ) ≤ i) :
    npSetOnes n is = .error .indexError := by
  unfold npSetOnes
  rw [npIndices_large is h0 h]
  rfl

theorem sortIdx_eq {n m : ℕ} (f : Fin m → Fin n) :
    sortIdx (fun t => (f t : ℤ)) = List.ofFn fun t => ((f ∘ Tuple.sort f) t : ℤ) := by
  unfold sortIdx
  refine List.Perm.eq_of_sortedLE (List.sortedLE_insertionSort) ?_ ?_
  · rw [List.sortedLE_ofFn_iff]
    intro a b hab
    have := Tuple.monotone_sort f hab
    simp only
    exact_mod_cast this
  · refine (List.perm_insertionSort _ _).trans ?_
    exact (Equiv.Perm.ofFn_comp_perm (Tuple.sort f) fun t => ((f t : ℕ) : ℤ)).symm

theorem mem_sortIdx {n m : ℕ} (f : Fin m → Fin n) (i : ℤ) : i ∈ sortIdx (fun t => (f t : ℤ)) ↔ ∃ t, (f t : ℤ) = i := by
  unfold sortIdx
  rw [List.mem_insertionSort, List.mem_ofFn']
  rfl

theorem mem_action (i : ℤ) : i ∈ actionFrames ↔ 63 ≤ i ∧ i ≤ 84 := by
  unfold actionFrames
  simp only [List.mem_map, List.mem_range]
  constructor
  · rintro ⟨a, ha, rfl⟩; omega
  · intro h
    exact ⟨(i - 63).toNat, by omega, by omega⟩

theorem mem_intersect (a b : List ℤ) (i : ℤ) : i ∈ intersect1d a b ↔ i ∈ a ∧ i ∈ b := by
  unfold intersect1d
  rw [List.mem_insertionSort, List.mem_dedup, List.mem_filter, decide_eq_true_iff]

end Pounce

open Spec Pounce

/-- C84, the outputs: for every selection of frames of a video, if all of them have a column on the chart then the new video is
the summary in the order of time, the bars stand at exactly the chosen frames, the coloured ones at exactly the chosen
frames of the pounce; if some chosen frame has no column the script aborts with an `IndexError`. -/
theorem C84_outputs {F : Type} {n m : ℕ} (raw : Fin n → F) (len : ℕ) (f : Fin m → Fin n) :
    ((∀ t, (f t : ℕ) < len) → ∃ shown y z, videoOutputs raw len (fun t => (f t : ℤ)) = .ok (shown, y, z) ∧
      Summary raw f shown ∧ Bars y (fun j => ∃ t, (f t : ℕ) = j) ∧ Bars z (fun j => Action j ∧ ∃ t, (f t : ℕ) = j)) ∧
    ((∃ t, len ≤ (f t : ℕ)) → videoOutputs raw len (fun t => (f t : ℤ)) = .error .indexError) := by
  have htake : npTake raw (sortIdx fun t => (f t : ℤ)) = .ok (List.ofFn fun t => raw ((f ∘ Tuple.sort f) t)) := by
    unfold npTake
    rw [sortIdx_eq]
    have : (List.ofFn fun t => ((f ∘ Tuple.sort f) t : ℤ)) = (List.ofFn (f ∘ Tuple.sort f)).map fun j : Fin n => ((j : ℕ) : ℤ) := by
      rw [List.map_ofFn]; rfl
    rw [this, npIndices_coe]
    show Except.ok _ = _
    rw [List.map_ofFn]
    rfl
  have hmem := mem_sortIdx f
  constructor
  · intro h
    have h1 : ∀ i ∈ sortIdx (fun t => (f t : ℤ)), 0 ≤ i ∧ i < len := by
      intro i hi
      obtain ⟨t, rfl⟩ := (hmem i).1 hi
      exact ⟨by omega, by have := h t; omega⟩
    have h2 : ∀ i ∈ intersect1d (sortIdx (fun t => (f t : ℤ))) actionFrames, 0 ≤ i ∧ i < len :=
      fun i hi => h1 i ((mem_intersect _ _ _).1 hi).1
    refine ⟨_, fun t => if (t : ℤ) ∈ sortIdx (fun t => (f t : ℤ)) then 1 else 0,
      fun t => if (t : ℤ) ∈ intersect1d (sortIdx (fun t => (f t : ℤ))) actionFrames then 1 else 0, ?_,
      ⟨_, Tuple.monotone_sort f, ⟨_, rfl⟩, rfl⟩, ?_, ?_⟩
    · unfold videoOutputs frameChart
      rw [htake, npSetOnes_ok _ h1, npSetOnes_ok _ h2]
      rfl
    · intro j
      have : (j : ℤ) ∈ sortIdx (fun t => (f t : ℤ)) ↔ ∃ t, (f t : ℕ) = j := by
        rw [hmem]; exact exists_congr fun t => by omega
      exact ⟨fun hj => if_pos (this.2 hj), fun hj => if_neg fun h => hj (this.1 h)⟩
    · intro j
      have : (j : ℤ) ∈ intersect1d (sortIdx (fun t => (f t : ℤ))) actionFrames ↔ Action j ∧ ∃ t, (f t : ℕ) = j := by
        rw [mem_intersect, mem_action, hmem, and_comm]
        exact and_congr (by unfold Action; omega) (exists_congr fun t => by omega)
      exact ⟨fun hj => if_pos (this.2 hj), fun hj => if_neg fun h => hj (this.1 h)⟩
  · rintro ⟨t, ht⟩
    unfold videoOutputs frameChart
    rw [htake, npSetOnes_large _ (fun i hi => ?_) ⟨(f t : ℤ), (hmem _).2 ⟨t, rfl⟩, by omega⟩]
    · rfl
    · obtain ⟨t, rfl⟩ := (hmem i).1 hi; omega

/-- A selection of frames 1, 70 and 84 in another order. -/
example : (videoOutputs (fun i : Fin 100 => (i : ℕ)) 100 (![84, 1, 70] : Fin 3 → ℤ)).toOption.map (fun r => (r.1, r.2.1 1, r.2.2 1, r.2.2 70))
    = some ([1, 70, 84], 1, 0, 1) := by decide +kernel

example := (C84_outputs (fun i : Fin 3 => (i : ℕ)) 3 ![2, 0]).1 (by decide)

/-- Distinct frames: the new video has as many frames as asked for, in strictly increasing order of time and none twice, and the
chart has as many bars. -/
theorem C84_distinct {F : Type} {n m : ℕ} (raw : Fin n → F) (len : ℕ) (f : Fin m → Fin n) (hf : Function.Injective f)
    (shown : List F) (y z : Fin len → ℕ) (h : videoOutputs raw len (fun t => (f t : ℤ)) = .ok (shown, y, z)) :
    (∃ g : Fin m → Fin n, StrictMono g ∧ Set.range g = Set.range f ∧ shown = List.ofFn fun t => raw (g t)) ∧
    shown.length = m ∧ ∑ j, y j = m ∧ (∀ j, z j ≤ y j) ∧
    ∑ j, z j = (Finset.univ.filter fun t => 63 ≤ (f t : ℕ) ∧ (f t : ℕ) ≤ 84).card := by
  by_cases hl : ∀ t, (f t : ℕ) < len
  · obtain ⟨shown', y', z', h', ⟨g, hg, ⟨σ, rfl⟩, hs⟩, hy, hz⟩ := (C84_outputs raw len f).1 hl
    rw [h'] at h
    obtain ⟨rfl, rfl, rfl⟩ : shown' = shown ∧ y' = y ∧ z' = z := by simpa using h
    have hcast : Function.Injective fun t => (⟨f t, hl t⟩ : Fin len) := fun a b hab => hf (Fin.ext (by simpa using hab))
    refine ⟨⟨_, hg.strictMono_of_injective (hf.comp σ.injective), by rw [Set.range_comp, Set.range_eq_univ.2 σ.surjective, Set.image_univ], hs⟩,
      by rw [hs, List.length_ofFn], ?_, ?_, ?_⟩
    · have : ∀ j, y' j = if j ∈ Finset.univ.image (fun t => (⟨f t, hl t⟩ : Fin len)) then 1 else 0 := by
        intro j
        by_cases hj : ∃ t, (f t : ℕ) = j
        · obtain ⟨t, ht⟩ := hj
          rw [(hy j).1 ⟨t, ht⟩, if_pos]
          exact Finset.mem_image.2 ⟨t, Finset.mem_univ _, Fin.ext ht⟩
        · rw [(hy j).2 hj, if_neg]
          intro hm
          obtain ⟨t, -, ht⟩ := Finset.mem_image.1 hm
          exact hj ⟨t, by rw [← ht]⟩
      rw [Finset.sum_congr rfl fun j _ => this j, Finset.sum_ite_mem, Finset.univ_inter, Finset.sum_const, smul_eq_mul, mul_one,
        Finset.card_image_of_injective _ hcast, Finset.card_univ, Fintype.card_fin]
    · intro j
      by_cases hj : Action j ∧ ∃ t, (f t : ℕ) = j
      · rw [(hz j).1 hj, (hy j).1 hj.2]
      · rw [(hz j).2 hj]; exact Nat.zero_le _
    · have : ∀ j, z' j = if j ∈ (Finset.univ.filter fun t => 63 ≤ (f t : ℕ) ∧ (f t : ℕ) ≤ 84).image (fun t => (⟨f t, hl t⟩ : Fin len)) then 1 else 0 := by
        intro j
        by_cases hj : Action j ∧ ∃ t, (f t : ℕ) = j
        · obtain ⟨ha, t, ht⟩ := hj
          rw [(hz j).1 ⟨ha, t, ht⟩, if_pos]
          refine Finset.mem_image.2 ⟨t, ?_, Fin.ext ht⟩
          rw [Finset.mem_filter, ht]
          exact ⟨Finset.mem_univ _, ha⟩
        · rw [(hz j).2 hj, if_neg]
          intro hm
          obtain ⟨t, hm, ht⟩ := Finset.mem_image.1 hm
          have : (f t : ℕ) = j := by rw [← ht]
          exact hj ⟨by rw [← this]; exact (Finset.mem_filter.1 hm).2, t, this⟩
      rw [Finset.sum_congr rfl fun j _ => this j, Finset.sum_ite_mem, Finset.univ_inter, Finset.sum_const, smul_eq_mul, mul_one,
        Finset.card_image_of_injective _ hcast]
  · push Not at hl
    rw [(C84_outputs raw len f).2 hl] at h
    cases h

example (shown : List ℕ) (y z : Fin 100 → ℕ) (h : videoOutputs (fun i : Fin 100 => (i : ℕ)) 100 (fun t => (![84, 1, 70] t : Fin 100).1) = .ok (shown, y, z)) :=
  C84_distinct (fun i : Fin 100 => (i : ℕ)) 100 ![84, 1, 70] (by decide) shown y z h

section
variable {F : Type} {d : ℕ} {n : ℕ} [NeZero n]

/-- The rows drawn for the length scale have a positive median distance. -/
def Spec.Spread (rows : Fin n → Vec d) (idx : Fin (selectionSize n) → Fin n) (l : ℝ) : Prop :=
  medianHeuristic (fun t => rows (idx t)) = some l ∧ 0 < l

theorem Pounce.kernel_ok (big : ℝ) (rows : Fin n → Vec d) (idx : Fin (selectionSize n) → Fin n) (l : ℝ) (h : Spread rows idx l) :
    ∃ score, pounceKernel big rows idx = .ok (.stein (.squaredExponential l 1) score, l) := by
  have hpi : 0 < Real.sqrt (2 * Real.pi) := Real.sqrt_pos.2 (by positivity)
  have hk : (kdeKernel l : KExpr d).check = .ok () := by
    have : 0 < 1 / (Real.sqrt (2 * Real.pi) * l) := by have := h.2; positivity
    simp only [kdeKernel, KExpr.check, checkPos, if_neg (not_le.2 h.2), if_neg (not_le.2 this)]
    rfl
  have hb : (KExpr.squaredExponential l 1 : KExpr d).check = .ok () := by
    simp only [KExpr.check, checkPos, if_neg (not_le.2 h.2), if_neg (not_le.2 (one_pos : (0 : ℝ) < 1))]
    rfl
  have hm : ∃ score, kdeMatch big l (fun t => rows (idx t)) = .ok score := by
    simp only [kdeMatch, hk]
    exact ⟨_, rfl⟩
  obtain ⟨score, hm⟩ := hm
  refine ⟨score, ?_⟩
  unfold pounceKernel
  rw [h.1]
  simp only [hm, hb]
  rfl

theorem Pounce.reference_ok {l : ℝ} (h : 0 < l) : (pounceReference l : KExpr d).check = .ok () := by
  have hpi : 0 < Real.sqrt (2 * Real.pi) := Real.sqrt_pos.2 (by positivity)
  have : 0 < 1 / (l * Real.sqrt (2 * Real.pi)) := by positivity
  simp only [pounceReference, KExpr.check, checkPos, if_neg (not_le.2 h), if_neg (not_le.2 this)]
  rfl

/-- Frames whose projections differ have a positive median distance. -/
theorem C84_spread (hn : 2 ≤ n) (rows : Fin n → Vec d) (hrows : Function.Injective rows) (idx : Fin (selectionSize n) → Fin n)
    (hidx : Function.Injective idx) : ∃ l, Spread rows idx l := by
  set x : Fin (selectionSize n) → Vec d := fun t => rows (idx t) with hx
  have hne := (pairDistances_ne_nil_iff x).2 (by unfold selectionSize; omega)
  have hlen : 0 < (pairDistances x).length := List.length_pos_iff.2 hne
  have hpos : ∀ v ∈ pairDistances x, (0 : ℝ) < v := by
    intro v hv
    simp only [pairDistances, List.mem_flatMap, List.mem_map, List.mem_filter, List.mem_finRange, true_and,
      decide_eq_true_eq] at hv
    obtain ⟨i, j, hij, rfl⟩ := hv
    have hxy : x i ≠ x j := fun he => absurd (hidx (hrows he)) (ne_of_lt hij)
    obtain ⟨c, hc⟩ := Function.ne_iff.1 hxy
    unfold sqDist
    refine Finset.sum_pos' (fun c _ => mul_self_nonneg _) ⟨c, Finset.mem_univ _, mul_self_pos.2 (sub_ne_zero.2 hc)⟩
  have hmid : ∀ k, k < (pairDistances x).length → (0 : ℝ) < ((pairDistances x).mergeSort (· ≤ ·)).getD k 0 := by
    intro k hk
    have hk' : k < ((pairDistances x).mergeSort (· ≤ ·)).length := by rwa [List.length_mergeSort]
    rw [List.getD_eq_getElem _ _ hk']
    exact hpos _ (List.mem_mergeSort.1 (List.getElem_mem hk'))
  have h1 : (0 : ℝ) < lowMid (pairDistances x) := hmid _ (by omega)
  have h2 : (0 : ℝ) < highMid (pairDistances x) := hmid _ (by omega)
  refine ⟨Real.sqrt ((lowMid (pairDistances x) + highMid (pairDistances x)) / 2 / 2), ?_, Real.sqrt_pos.2 (by linarith)⟩
  rw [medianHeuristic, medianOf_eq hne]
  rfl

example := C84_spread (n := 3) (d := 1) (by norm_num) (fun i _ => ((i : ℕ) : ℝ)) (fun a b h => by simpa [Fin.ext_iff] using congrFun h 0) id Function.injective_id

/-- C84, the whole example: for every video of `n + 1` frames, every projection and every draw of rows with a positive median
distance, asking for at most `n` frames.  The herding selection `f` of distinct frames (the first frame of the file excepted) is determined
by the Stein kernel; the new video shows exactly these in the order of time and the discrepancy reported is that of
the selected rows with equal weights — unless a frame beyond the first thousand is selected, when the chart cannot be drawn and the
script aborts. -/
theorem C84_main (big : ℝ) (size : ℕ) (hsize : 0 < size) (hle : size ≤ n) (pca : (Fin n → F) → Fin n → Vec d) (video : Fin (n + 1) → F)
    (idx : Fin (selectionSize n) → Fin n) (ord : List (Fin (size + (size - size)))) (hord : ∀ t, t ∈ ord) (l : ℝ)
    (hl : Spread (pca fun i => video i.succ) idx l) :
    ∃ (score : Vec d → Vec d) (f : Fin size → Fin n), Function.Injective f ∧
      HerdingReduce (KExpr.stein (.squaredExponential l 1) score : KExpr d).sem.compute (pca fun i => video i.succ) (fun _ => (1 : ℝ)) true f ∧
      ((∀ t, (f t : ℕ) < 1000) → ∃ shown y z mmd, pounceMain big size pca video idx ord = .ok (shown, (y, z), mmd) ∧
        (∃ g : Fin size → Fin n, StrictMono g ∧ Set.range g = Set.range f ∧ shown = List.ofFn fun t => video (g t).succ) ∧
        Bars y (fun j => ∃ t, (f t : ℕ) = j) ∧ Bars z (fun j => Action j ∧ ∃ t, (f t : ℕ) = j) ∧
        mmd = Real.sqrt (max 0 (mmdSq (pounceReference l : KExpr d).sem.compute (pca fun i => video i.succ) (fun _ => 1)
          (fun t => pca (fun i => video i.succ) (f t)) (fun _ => 1)))) ∧
      ((∃ t, 1000 ≤ (f t : ℕ)) → pounceMain big size pca video idx ord = .error .indexError) := by
  obtain ⟨score, hker⟩ := kernel_ok big _ idx l hl
  have hn : 0 < n := NeZero.pos n
  have hw : ∑ j, (Data.ofArray (K := ℝ) (pca (fun i => video i.succ))).weights j ≠ 0 := by
    simp only [Data.ofArray, Finset.sum_const, Finset.card_univ, Fintype.card_fin, nsmul_eq_mul, mul_one]
    exact_mod_cast hn.ne'
  have hpos : PosCount (Data.ofArray (K := ℝ) (pca (fun i => video i.succ))).weights size :=
    posCount_of_pos (fun t => one_pos) hle
  obtain ⟨f, hf, hrun⟩ := C12_reduce_greedy big (KExpr.stein (.squaredExponential l 1) score : KExpr d).sem.compute
    (C08_symmetric _ trivial) true (.leaf none) (Or.inl rfl) size hsize (Data.ofArray (K := ℝ) (pca (fun i => video i.succ))) hw none (by simp)
    ord hord hpos
  obtain ⟨f', st, hf', -, hinj⟩ := C11_reduce_valid big (KExpr.stein (.squaredExponential l 1) score : KExpr d).sem.compute none true
    (.leaf none) (Or.inl rfl) size hsize (Data.ofArray (K := ℝ) (pca (fun i => video i.succ))) (fun _ h => by cases h) none ord hord hpos
  have hff : f = f' := by
    have := hf.symm.trans hf'
    simp only [Except.ok.injEq, Prod.mk.injEq, Data.mk.injEq] at this
    funext t
    have := congrFun this.1.1 t
    exact Fin.ext (by simpa using this)
  subst hff
  have hmmd : mmdCompute big (pounceReference l : KExpr d).sem.compute (Data.ofArray (K := ℝ) (pca (fun i => video i.succ)))
      ⟨((Data.ofArray (K := ℝ) (pca (fun i => video i.succ))).getItem fun t => ((f t : ℕ) : ℤ)).data, fun _ : Fin size => 1⟩ (.leaf none)
      = .ok (Real.sqrt (max 0 (mmdSq (pounceReference l : KExpr d).sem.compute (pca fun i => video i.succ) (fun _ => 1)
          (fun t => pca (fun i => video i.succ) (f t)) (fun _ => 1)))) := by
    rw [C07_compute big _ hn hsize _ _ hw (by simp; omega) _ (Or.inl rfl)]
    have : ((Data.ofArray (K := ℝ) (pca (fun i => video i.succ))).getItem fun t => ((f t : ℕ) : ℤ)).data = fun t => pca (fun i => video i.succ) (f t) := by
      funext t
      simp only [Data.getItem, gatherIdx_coe, Data.ofArray]
    rw [this]
    rfl
  have hmain : pounceMain big size pca video idx ord = (do
      let r ← videoOutputs (dropFirst video) (selectionSize n) (fun t => (f t : ℤ))
      .ok (r.1, r.2, Real.sqrt (max 0 (mmdSq (pounceReference l : KExpr d).sem.compute (pca fun i => video i.succ) (fun _ => 1)
          (fun t => pca (fun i => video i.succ) (f t)) (fun _ => 1))))) := by
    unfold pounceMain
    have hd : dropFirst video = fun i => video i.succ := rfl
    simp only [hd, hker, liftErr, bind, Except.bind, hf, reference_ok hl.2, hmmd]
  refine ⟨score, f, hinj rfl, hrun, fun h => ?_, fun h => ?_⟩
  · have h' : ∀ t, (f t : ℕ) < selectionSize n := fun t => by
      have := h t
      have := (f t).2
      unfold selectionSize
      omega
    obtain ⟨shown, y, z, ho, -, hy, hz⟩ := (C84_outputs (dropFirst video) (selectionSize n) f).1 h'
    obtain ⟨hg, -⟩ := C84_distinct (dropFirst video) (selectionSize n) f (hinj rfl) shown y z ho
    refine ⟨shown, y, z, _, ?_, hg, hy, hz, rfl⟩
    rw [hmain, ho]
    rfl
  · obtain ⟨t, ht⟩ := h
    rw [hmain, (C84_outputs (dropFirst video) (selectionSize n) f).2 ⟨t, by unfold selectionSize; omega⟩]
    rfl

/-- With at most a thousand frames besides the first the example always succeeds. -/
theorem C84_short (big : ℝ) (size : ℕ) (hsize : 0 < size) (hle : size ≤ n) (h1000 : n ≤ 1000) (pca : (Fin n → F) → Fin n → Vec d)
    (video : Fin (n + 1) → F) (idx : Fin (selectionSize n) → Fin n) (ord : List (Fin (size + (size - size)))) (hord : ∀ t, t ∈ ord) (l : ℝ)
    (hl : Spread (pca fun i => video i.succ) idx l) : ∃ r, pounceMain big size pca video idx ord = .ok r ∧ r.1.length = size := by
  obtain ⟨score, f, -, -, h, -⟩ := C84_main big size hsize hle pca video idx ord hord l hl
  obtain ⟨shown, y, z, mmd, h1, ⟨g, -, -, rfl⟩, -⟩ := h fun t => (f t).2.trans_le h1000
  exact ⟨_, h1, by simp⟩

/-- Asking for more frames than there are is refused. -/
theorem C84_too_many (big : ℝ) (size : ℕ) (hgt : n < size) (pca : (Fin n → F) → Fin n → Vec d) (video : Fin (n + 1) → F)
    (idx : Fin (selectionSize n) → Fin n) (ord : List (Fin (size + (size - size)))) :
    ∃ e, pounceMain big size pca video idx ord = .error (.library e) := by
  unfold pounceMain
  cases h : pounceKernel big (pca (dropFirst video)) idx with
  | error e => exact ⟨e, by simp only [h, liftErr, bind, Except.bind]⟩
  | ok r =>
    refine ⟨.valueError, ?_⟩
    simp only [h, liftErr, bind, Except.bind, C11_reduce_too_large big _ none true (.leaf none) size hgt]

/-- Rows that are all the same have a median distance of zero. -/
theorem median_still {m : ℕ} (hm : 2 ≤ m) (x : Fin m → Vec d) (h : ∀ i j, x i = x j) : medianHeuristic x = some 0 := by
  have hne := (pairDistances_ne_nil_iff x).2 hm
  have h0 : ∀ v ∈ pairDistances x, v = (0 : ℝ) := by
    intro v hv
    simp only [pairDistances, List.mem_flatMap, List.mem_map, List.mem_filter, List.mem_finRange, true_and,
      decide_eq_true_eq] at hv
    obtain ⟨i, j, -, rfl⟩ := hv
    simp [sqDist, h i j]
  have hmid : ∀ k, ((pairDistances x).mergeSort (· ≤ ·)).getD k 0 = (0 : ℝ) := by
    intro k
    by_cases hk : k < ((pairDistances x).mergeSort (· ≤ ·)).length
    · rw [List.getD_eq_getElem _ _ hk]
      exact h0 _ (List.mem_mergeSort.1 (List.getElem_mem hk))
    · rw [List.getD_eq_default _ _ (not_lt.1 hk)]
  have h1 : lowMid (pairDistances x) = 0 := hmid _
  have h2 : highMid (pairDistances x) = 0 := hmid _
  rw [medianHeuristic, medianOf_eq hne, h1, h2]
  simp

/-- A video of which the drawn frames have a median distance of zero — a still picture, for instance — is refused: no kernel can be built. -/
theorem C84_still (big : ℝ) (size : ℕ) (pca : (Fin n → F) → Fin n → Vec d) (video : Fin (n + 1) → F)
    (idx : Fin (selectionSize n) → Fin n) (ord : List (Fin (size + (size - size))))
    (h : medianHeuristic (fun t => pca (fun i => video i.succ) (idx t)) = some 0) :
    pounceMain big size pca video idx ord = .error (.library .valueError) := by
  have hd : dropFirst video = fun i => video i.succ := rfl
  have hk : kdeMatch big 0 (fun t => pca (fun i => video i.succ) (idx t)) = .error .valueError := by
    unfold kdeMatch kdeKernel
    simp only [KExpr.check, checkPos, if_pos (le_refl (0 : ℝ))]
    rfl
  unfold pounceMain pounceKernel
  simp only [hd, h, hk, bind, Except.bind, liftErr]

/-- A still picture of any length is refused. -/
theorem C84_still_picture (hn : 2 ≤ n) (big : ℝ) (size : ℕ) (pca : (Fin n → F) → Fin n → Vec d) (video : Fin (n + 1) → F)
    (idx : Fin (selectionSize n) → Fin n) (ord : List (Fin (size + (size - size))))
    (h : ∀ i j, pca (fun i => video i.succ) i = pca (fun i => video i.succ) j) :
    pounceMain big size pca video idx ord = .error (.library .valueError) :=
  C84_still big size pca video idx ord (median_still (by unfold selectionSize; omega) _ fun _ _ => h _ _)

example (big : ℝ) (idx : Fin (selectionSize 3) → Fin 3) (ord : List (Fin (2 + (2 - 2)))) :=
  C84_still_picture (n := 3) (d := 1) (by norm_num) big 2 (fun raw i _ => raw i) (fun _ : Fin 4 => (7 : ℝ)) idx ord (fun _ _ => rfl)

/-- Three distinct frames after the first, two of them asked for, whatever draw and order. -/
example (big : ℝ) (idx : Fin (selectionSize 3) → Fin 3) (hidx : Function.Injective idx) (ord : List (Fin (2 + (2 - 2)))) (hord : ∀ t, t ∈ ord) :
    ∃ r, pounceMain (n := 3) (d := 1) big 2 (fun raw i _ => raw i) (fun i : Fin 4 => ((i : ℕ) : ℝ)) idx ord = .ok r ∧ r.1.length = 2 := by
  obtain ⟨l, hl⟩ := C84_spread (n := 3) (d := 1) (by norm_num) (fun i _ => (((Fin.succ i : Fin 4) : ℕ) : ℝ))
    (fun a b h => by simpa [Fin.ext_iff] using congrFun h 0) idx hidx
  exact C84_short big 2 (by norm_num) (by norm_num) (by norm_num) _ _ idx ord hord l hl

example (big : ℝ) (idx : Fin (selectionSize 3) → Fin 3) (ord : List (Fin (4 + (4 - 4)))) :=
  C84_too_many (n := 3) (d := 1) big 4 (by norm_num) (fun raw i _ => raw i) (fun i : Fin 4 => ((i : ℕ) : ℝ)) idx ord

end

/-- C84 with map-reduce: ten frames and leaves of twenty, for videos whose first-round partitions have ten rows besides
the padding.  The result arrives after about `log₂ (n / 10)` rounds, and the new video shows ten distinct frames in the order of time.
With leaves of nineteen no result would ever arrive for a video of more than nineteen frames. -/
theorem C84_map_reduce {F X : Type} [Zero X] (big : ℝ) (k : X → X → ℝ) {n : ℕ} [NeZero n] (hn : 10 ≤ n) (h1000 : n ≤ 1000) (raw : Fin n → F)
    (rows : Fin n → X) (tree : TreeIndices X ℝ) (ht : TreeContract tree)
    (hpart : 20 < n → ∀ q, PosCount (partData 20 tree (Data.ofArray rows) q).weights 10) :
    (∃ res shown y z, (∀ fuel, Nat.log 2 ((n - 1) / 10) + 2 ≤ fuel →
        mrRun 20 (herdingBase big k (.leaf none) 10) tree fuel n (Data.ofArray rows) none = some (.ok res)) ∧
      videoOutputs raw (selectionSize n) res.data = .ok (shown, y, z) ∧
      (∃ g : Fin 10 → Fin n, StrictMono g ∧ (∀ j : Fin n, (∃ t, g t = j) ↔ ∃ t, res.data t = (j : ℤ)) ∧ shown = List.ofFn fun t => raw (g t)) ∧
      ∑ j, y j = 10) ∧
    (19 < n → ∀ fuel c, mrRun 19 (herdingBase big k (.leaf none) 10) tree fuel n (Data.ofArray rows) none ≠ some (.ok c)) := by
  constructor
  · obtain ⟨res, h1, f, hf, hinj, -⟩ := C22_valid 20 (by norm_num) (by norm_num) (herdingBase big k (.leaf none) 10)
      (C22_herding_base big k (.leaf none) (Or.inl rfl) 10 (by norm_num)).1 tree ht (Data.ofArray (K := ℝ) rows) hn (fun _ => one_pos) hpart
    have hres : res.data = fun t => (f t : ℤ) := funext hf
    obtain ⟨shown, y, z, ho, -⟩ := (C84_outputs raw (selectionSize n) f).1 fun t => by unfold selectionSize; omega
    obtain ⟨⟨g, hg, hr, hs⟩, -, hy, -⟩ := C84_distinct raw (selectionSize n) f hinj shown y z ho
    refine ⟨res, shown, y, z, h1, by rw [hres]; exact ho, ⟨g, hg, fun j => ?_, hs⟩, hy⟩
    have : (∃ t, g t = j) ↔ ∃ t, f t = j := by
      have := Set.ext_iff.1 hr j
      simpa only [Set.mem_range] using this
    rw [this]
    refine exists_congr fun t => ?_
    rw [hf t, Fin.ext_iff]
    omega
  · exact fun h fuel c => C23_never_succeeds 19 (by norm_num) (by norm_num) (by norm_num) _ tree fuel h _ none c

example (big : ℝ) := C84_map_reduce big (fun a b : ℝ => a * b + 1) (n := 12) (by norm_num) (by norm_num) (fun i => (i : ℕ)) (fun i => ((i : ℕ) : ℝ)) (rowTree ℝ ℝ)
  rowTree_contract (fun h => by norm_num at h)

end Coreax
