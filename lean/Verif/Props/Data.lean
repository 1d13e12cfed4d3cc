import Verif.Props.Mean

/-!
# C01, C02, C03: datasets

`/repo/coreax/data.py`.
-/

set_option linter.unusedSectionVars false

namespace Coreax

/-! ### C01 construction -/

/-- The shape that the documentation promises for an input of a given shape. -/
def Spec.shape2d : List ℕ → List ℕ
  | [] => [1, 1]
  | [n] => [n, 1]
  | s => s

/-- Which weight shapes are acceptable for `n` rows: a scalar, one entry, or `n` entries. -/
def Spec.WeightsOk (n : ℕ) (shape : List ℕ) : Prop := shape = [] ∨ shape = [1] ∨ shape = [n]

theorem atleast2d_shape {α : Type*} (a : NdArray α) : (atleast2d a).shape = Spec.shape2d a.shape := by
  unfold atleast2d
  split <;> rename_i h <;> simp [h, Spec.shape2d]

theorem atleast2d_flat {α : Type*} (a : NdArray α) : (atleast2d a).flat = a.flat := by
  unfold atleast2d
  split <;> rfl

/-- The coerced array has rank at least two, the documented shape, the same entries in the same order, and coercing
again changes nothing. -/
theorem C01_atleast_2d {α : Type*} (a : NdArray α) :
    (atleast2d a).ndim = max 2 a.shape.length ∧ (atleast2d a).shape = Spec.shape2d a.shape ∧ (atleast2d a).flat = a.flat ∧
      atleast2d (atleast2d a) = atleast2d a := by
  refine ⟨?_, atleast2d_shape a, atleast2d_flat a, ?_⟩
  · rw [NdArray.ndim, atleast2d_shape]
    rcases a.shape with _ | ⟨_, _ | ⟨_, _⟩⟩ <;> simp [Spec.shape2d]
  · have h : ∃ p q r, (atleast2d a).shape = p :: q :: r := by
      rw [atleast2d_shape]
      rcases a.shape with _ | ⟨_, _ | ⟨_, _⟩⟩ <;> simp [Spec.shape2d]
    obtain ⟨p, q, r, hpq⟩ := h
    generalize atleast2d a = b at *
    unfold atleast2d
    split <;> rename_i h <;> simp_all

theorem broadcastTo1_spec {α : Type*} (w : NdArray α) (n : ℕ) :
    (Spec.WeightsOk n w.shape → ∃ l, broadcastTo1 w n = .ok l ∧ l.length = n ∧
      (∀ i (hi : i < l.length), (w.shape = [n] ∧ w.flat[i]? = some l[i]) ∨
        (w.shape ≠ [n] ∧ w.flat = [l[i]]))) ∧
    (¬ Spec.WeightsOk n w.shape → broadcastTo1 w n = .error .valueError) := by
  obtain ⟨shape, flat, h⟩ := w
  unfold broadcastTo1 Spec.WeightsOk
  rcases shape with _ | ⟨s, _ | ⟨t, r⟩⟩
  · simp only [List.prod_nil, List.length_eq_one_iff] at h
    obtain ⟨c, rfl⟩ := h
    simp
  · simp only [List.prod_singleton] at h
    by_cases hs : s = n
    · subst hs
      simp only [or_true, not_true_eq_false, IsEmpty.forall_iff, and_true, if_true, forall_const]
      exact ⟨flat, rfl, h, fun i hi => by simp [hi]⟩
    · by_cases h1 : s = 1
      · subst h1
        obtain ⟨c, rfl⟩ := List.length_eq_one_iff.1 h
        simp [hs]
      · simp [hs, h1]
  · simp

/-- Construction of a dataset: it succeeds exactly for acceptable weight shapes (`ValueError` otherwise); then the
data has the documented rank ≥ 2 shape and unchanged entries, `len` is the leading length and there is exactly one
weight per row: the given ones, or copies of the single given one, or ones. -/
theorem C01_data_init {α : Type*} [One α] (a : NdArray α) (w : Option (NdArray α)) :
    let n := (Spec.shape2d a.shape).headD 0
    ((∀ v ∈ w, Spec.WeightsOk n v.shape) →
      ∃ d, DataObj.init a w = .ok d ∧ d.data.shape = Spec.shape2d a.shape ∧ d.data.flat = a.flat ∧
        d.len = n ∧ d.weights.length = n ∧
        (w = none → d.weights = List.replicate n 1) ∧
        (∀ v ∈ w, ∀ i (hi : i < d.weights.length),
          (v.shape = [n] ∧ v.flat[i]? = some d.weights[i]) ∨
          (v.shape ≠ [n] ∧ v.flat = [d.weights[i]]))) ∧
    ((∃ v ∈ w, ¬ Spec.WeightsOk n v.shape) → DataObj.init a w = .error .valueError) := by
  intro n
  have hn : (atleast2d a).shape.headD 0 = n := by rw [atleast2d_shape]
  constructor
  · intro hw
    rcases w with _ | v
    · refine ⟨⟨atleast2d a, List.replicate n 1⟩, ?_, atleast2d_shape a, atleast2d_flat a, hn, by simp, by simp,
        by simp⟩
      simp only [DataObj.init, hn, Option.getD_none, NdArray.scalar, broadcastTo1]
    · obtain ⟨l, h1, h2, h3⟩ := (broadcastTo1_spec v n).1 (hw v rfl)
      refine ⟨⟨atleast2d a, l⟩, ?_, atleast2d_shape a, atleast2d_flat a, hn, h2, by simp, ?_⟩
      · simp only [DataObj.init, hn, Option.getD_some, h1]
      · rintro _ ⟨⟩ i hi
        exact h3 i hi
  · rintro ⟨v, hv, h⟩
    rcases w with _ | w
    · simp at hv
    · simp only [Option.mem_def, Option.some.injEq] at hv
      subst hv
      simp only [DataObj.init, hn, Option.getD_some, (broadcastTo1_spec _ n).2 h]

/-- A supervised dataset exists exactly when the underlying dataset does and the leading lengths agree; otherwise
`ValueError`.  When it exists it carries the same data and weights and the rank ≥ 2 supervision. -/
theorem C01_supervised_init {α : Type*} [One α] (a s : NdArray α) (w : Option (NdArray α)) :
    let n := (Spec.shape2d a.shape).headD 0
    (((∀ v ∈ w, Spec.WeightsOk n v.shape) ∧ (Spec.shape2d s.shape).headD 0 = n) →
      ∃ d o, DataObj.init a w = .ok d ∧ SupObj.init a s w = .ok o ∧ o.toDataObj = d ∧
        o.supervision.shape = Spec.shape2d s.shape ∧ o.supervision.flat = s.flat) ∧
    (¬((∀ v ∈ w, Spec.WeightsOk n v.shape) ∧ (Spec.shape2d s.shape).headD 0 = n) →
      SupObj.init a s w = .error .valueError) := by
  intro n
  have hn : (atleast2d a).shape.headD 0 = n := by rw [atleast2d_shape]
  have hs : (atleast2d s).shape.headD 0 = (Spec.shape2d s.shape).headD 0 := by rw [atleast2d_shape]
  obtain ⟨h1, h2⟩ := C01_data_init a w
  constructor
  · rintro ⟨hw, hl⟩
    obtain ⟨d, hd, hsh, _, _, _⟩ := h1 hw
    refine ⟨d, ⟨d, atleast2d s⟩, hd, ?_, rfl, atleast2d_shape s, atleast2d_flat s⟩
    simp only [SupObj.init, hd, hs, hsh, hl]
    simp [n]
  · intro h
    by_cases hw : ∀ v ∈ w, Spec.WeightsOk n v.shape
    · obtain ⟨d, hd, hsh, _⟩ := h1 hw
      have hl : (Spec.shape2d s.shape).headD 0 ≠ n := fun hl => h ⟨hw, hl⟩
      simp only [SupObj.init, hd, hs, hsh]
      simp [n] at hl
      simp [hl]
    · push Not at hw
      simp only [SupObj.init, h2 hw]

/-- `as_data`/`as_supervised_data` leave existing objects alone and otherwise construct with unit weights. -/
theorem C01_as_data {α : Type*} [One α] (a b : NdArray α) (d : DataObj α) (s : SupObj α) :
    asData (.inr d) = .ok d ∧ asSupervisedData (.inr s) = .ok s ∧
    (∃ d', asData (.inl a) = .ok d' ∧ d'.weights = List.replicate ((Spec.shape2d a.shape).headD 0) 1) ∧
    ((∃ o, asSupervisedData (.inl (a, b)) = .ok o) ↔
      (Spec.shape2d a.shape).headD 0 = (Spec.shape2d b.shape).headD 0) := by
  refine ⟨rfl, rfl, ?_, ?_⟩
  · obtain ⟨d', h1, _, _, _, _, h2, _⟩ := (C01_data_init a none).1 (by simp)
    exact ⟨d', h1, h2 rfl⟩
  · constructor
    · rintro ⟨o, ho⟩
      by_contra h
      have := (C01_supervised_init a b none).2 (fun h' => h h'.2.symm)
      simp [asSupervisedData, this] at ho
    · intro h
      obtain ⟨d, o, _, h2, _⟩ := (C01_supervised_init a b none).1 ⟨by simp, h.symm⟩
      exact ⟨o, h2⟩

/-- A vector of three points with one weight; and a mismatching supervision. -/
example : (DataObj.init (NdArray.vector [5, 6, 7]) (some (NdArray.scalar 2))).map
    (fun d => (d.data.shape, d.weights)) = .ok ([3, 1], [2, 2, 2]) := by decide
example : (SupObj.init (NdArray.vector [5, 6, 7]) (NdArray.vector [1, 2]) none).map
    (fun d => d.weights) = .error .valueError := by decide

/-! ### C02 normalisation -/

section
variable {n : ℕ} {X K : Type*} [Field K] [LinearOrder K]

theorem normWeights_of_sum_ne {w : Fin n → K} (h : ∑ i, w i ≠ 0) (i : Fin n) :
    normWeights w i = Ext.fin (w i / ∑ j, w j) := by
  show Ext.div (Ext.fin (w i)) (Ext.fin (∑ j, w j)) = _
  simp [Ext.div, h]

/-- For a non-zero sum the normalised weights are finite, sum to one, keep ratios and zeros, and the data is
untouched; `preserve_zeros` makes no difference. -/
theorem C02_normalize (big : K) (d : Data n X K) (h : ∑ i, d.weights i ≠ 0) :
    ∃ v : Fin n → K, d.normalize = ⟨d.data, fun i => Ext.fin (v i)⟩ ∧ d.normalizePZ big = ⟨d.data, v⟩ ∧
      ∑ i, v i = 1 ∧ (∀ i j, v i * d.weights j = v j * d.weights i) ∧ (∀ i, v i = 0 ↔ d.weights i = 0) := by
  refine ⟨fun i => d.weights i / ∑ j, d.weights j, ?_, ?_, ?_, ?_, ?_⟩
  · simp only [Data.normalize]
    congr 1
    funext i
    exact normWeights_of_sum_ne h i
  · simp only [Data.normalizePZ]
    congr 1
    funext i
    exact normWeightsPZ_of_sum_ne big h i
  · rw [← Finset.sum_div, div_self h]
  · intro i j; ring
  · intro i; simp [h]

example := C02_normalize 1000 (⟨![5, 7, 9], ![1, 0, 3]⟩ : Data 3 ℚ ℚ) (by decide +kernel)

/-- Scale invariance: multiplying every weight by `c ≠ 0` changes nothing. -/
theorem C02_normalize_scale (d : Data n X K) (h : ∑ i, d.weights i ≠ 0) (c : K) (hc : c ≠ 0) :
    (⟨d.data, fun i => c * d.weights i⟩ : Data n X K).normalize = d.normalize := by
  simp only [Data.normalize]
  congr 1
  funext i
  rw [normWeights_of_sum_ne h, normWeights_of_sum_ne (by rw [← Finset.mul_sum]; exact mul_ne_zero hc h),
    ← Finset.mul_sum, mul_div_mul_left _ _ hc]

example := C02_normalize_scale (⟨![5, 7, 9], ![1, 0, 3]⟩ : Data 3 ℚ ℚ) (by decide +kernel) 5 (by norm_num)

/-- Normalising twice is normalising once; this includes all-zero weights. -/
theorem C02_normalize_idempotent (big : K) (d : Data n X K)
    (h : ∑ i, d.weights i ≠ 0 ∨ ∀ i, d.weights i = 0) :
    (d.normalizePZ big).normalizePZ big = d.normalizePZ big := by
  simp only [Data.normalizePZ]
  congr 1
  funext i
  rcases h with h | h
  · have e : normWeightsPZ big d.weights = fun i => d.weights i / ∑ j, d.weights j := by
      funext i; exact normWeightsPZ_of_sum_ne big h i
    have hs : ∑ i, normWeightsPZ big d.weights i = 1 := by rw [e, ← Finset.sum_div, div_self h]
    rw [normWeightsPZ_of_sum_ne big (by rw [hs]; exact one_ne_zero), hs, div_one]
  · have e : ∀ i, normWeightsPZ big d.weights i = 0 := normWeightsPZ_of_zero big h
    rw [normWeightsPZ_of_zero big e, e]

example := C02_normalize_idempotent 1000 (⟨![5, 7, 9], ![1, 0, 3]⟩ : Data 3 ℚ ℚ) (.inl (by decide +kernel))

/-- All-zero weights: NaN everywhere without `preserve_zeros`, zero everywhere (sum zero) with it. -/
theorem C02_normalize_zero (big : K) (d : Data n X K) (h : ∀ i, d.weights i = 0) :
    (∀ i, d.normalize.weights i = Ext.nan) ∧ (∀ i, (d.normalizePZ big).weights i = 0) ∧
      ∑ i, (d.normalizePZ big).weights i = 0 := by
  refine ⟨fun i => ?_, normWeightsPZ_of_zero big h, ?_⟩
  · show Ext.div (Ext.fin (d.weights i)) (Ext.fin (∑ j, d.weights j)) = _
    simp [Ext.div, h]
  · simp [Data.normalizePZ, normWeightsPZ_of_zero big h]

example := C02_normalize_zero 1000 (⟨![5, 7], ![0, 0]⟩ : Data 2 ℚ ℚ) (by decide +kernel)

/-- A vanishing sum with non-zero weights: `preserve_zeros` turns the non-zero weights into plus or minus the largest
float, so the result does not sum to one in general (the documentation only foresees all-zero weights). -/
theorem C02_normalize_cancelling (big : K) (d : Data n X K) (h : ∑ i, d.weights i = 0) (i : Fin n) :
    (d.normalizePZ big).weights i =
      if d.weights i = 0 then 0 else if 0 < d.weights i then big else -big := by
  show Ext.nanToNum big (Ext.div (Ext.fin (d.weights i)) (Ext.fin (∑ j, d.weights j))) = _
  simp only [Ext.div, h, if_true]
  split_ifs <;> rfl

example : (Data.normalizePZ 1000 (⟨![5, 7, 9], ![2, 0, -2]⟩ : Data 3 ℚ ℚ)).weights 2 = -1000 :=
  (C02_normalize_cancelling 1000 _ (by decide +kernel) 2).trans (by decide +kernel)

/-- Non-negative weights stay non-negative. -/
theorem C02_normalize_nonneg [IsStrictOrderedRing K] (big : K) (d : Data n X K) (h : ∀ i, 0 ≤ d.weights i)
    (i : Fin n) : 0 ≤ (d.normalizePZ big).weights i ∧ (d.normalizePZ big).weights i ≤ 1 := by
  by_cases hs : ∑ i, d.weights i = 0
  · have : ∀ i, d.weights i = 0 := fun i =>
      (Finset.sum_eq_zero_iff_of_nonneg (fun i _ => h i)).1 hs i (Finset.mem_univ i)
    rw [(C02_normalize_zero big d this).2.1 i]
    exact ⟨le_refl _, zero_le_one⟩
  · have hp : 0 < ∑ i, d.weights i := lt_of_le_of_ne (Finset.sum_nonneg (fun i _ => h i)) (Ne.symm hs)
    have e : (d.normalizePZ big).weights i = d.weights i / ∑ j, d.weights j := normWeightsPZ_of_sum_ne big hs i
    rw [e]
    refine ⟨div_nonneg (h i) hp.le, (div_le_one hp).2 ?_⟩
    exact Finset.single_le_sum (fun i _ => h i) (Finset.mem_univ i)

end

example : ((⟨![10, 20, 30], ![1, 0, 3]⟩ : Data 3 ℚ ℚ).normalizePZ 1000).weights = ![1/4, 0, 3/4] := by
  decide +kernel

/-! ### C03 indexing -/

/-- The row that index `i` addresses in an axis of length `n`: in range directly, from the end when negative, and
otherwise the nearest valid row. -/
theorem C03_gather_rows (n : ℕ) [NeZero n] (i : ℤ) :
    (0 ≤ i → i < n → ((gatherIdx n i : ℕ) : ℤ) = i) ∧
    (i < 0 → -n ≤ i → ((gatherIdx n i : ℕ) : ℤ) = n + i) ∧
    ((n : ℤ) ≤ i → (gatherIdx n i : ℕ) = n - 1) ∧
    (i < -n → (gatherIdx n i : ℕ) = 0) := by
  have := NeZero.pos n
  simp only [gatherIdx]
  refine ⟨fun h1 h2 => ?_, fun h1 h2 => ?_, fun h => ?_, fun h => ?_⟩ <;> split_ifs <;> omega

/-- Position `j` of an indexed supervised dataset holds the data row, weight and supervision row of one and the same
original item, the one that the index addresses. -/
theorem C03_getitem_aligned {n m : ℕ} [NeZero n] {X Y K : Type*} (d : SupData n X Y K) (key : Fin m → ℤ)
    (j : Fin m) :
    ∃ i : Fin n, (d.getItem key).data j = d.data i ∧ (d.getItem key).weights j = d.weights i ∧
      (d.getItem key).supervision j = d.supervision i ∧
      (0 ≤ key j → key j < n → (i : ℤ) = key j) ∧ (key j < 0 → -n ≤ key j → (i : ℤ) = n + key j) :=
  ⟨gatherIdx n (key j), rfl, rfl, rfl, (C03_gather_rows n (key j)).1, (C03_gather_rows n (key j)).2.1⟩

/-- Indexing twice is indexing once with the composed indices. -/
theorem C03_getitem_getitem {n m l : ℕ} [NeZero n] [NeZero m] {X Y K : Type*} (d : SupData n X Y K)
    (key : Fin m → ℤ) (key' : Fin l → ℤ) (h : ∀ j, 0 ≤ key' j ∧ key' j < m) :
    (d.getItem key).getItem key' = d.getItem (fun j => key ⟨(key' j).toNat, by have := h j; omega⟩) := by
  have e : ∀ j, gatherIdx m (key' j) = ⟨(key' j).toNat, by have := h j; omega⟩ := by
    intro j
    apply Fin.ext
    have := (C03_gather_rows m (key' j)).1 (h j).1 (h j).2
    simp only
    omega
  simp only [SupData.getItem, e]

example := C03_getitem_getitem (⟨⟨![5, 7, 9], ![1, 0, 3]⟩, ![1, 2, 3]⟩ : SupData 3 ℚ ℚ ℚ) ![-1, 7] ![1, 1, 0] (by decide)

/-- Indexing with `0, 1, …, n-1` returns the dataset itself. -/
theorem C03_getitem_id {n : ℕ} [NeZero n] {X Y K : Type*} (d : SupData n X Y K) :
    d.getItem (fun i : Fin n => (i : ℤ)) = d := by
  have e : ∀ i : Fin n, gatherIdx n (i : ℤ) = i := by
    intro i
    apply Fin.ext
    have := (C03_gather_rows n i).1 (by omega) (by have := i.2; omega)
    omega
  simp only [SupData.getItem, e]

/-- Conversion to an array commutes with indexing, and the array row is data followed by supervision. -/
theorem C03_asarray_getitem {n m d p : ℕ} [NeZero n] {K : Type*} (s : SupData n (Fin d → K) (Fin p → K) K)
    (key : Fin m → ℤ) (j : Fin m) :
    (s.getItem key).asArray j = s.asArray (gatherIdx n (key j)) ∧
    (∀ c : Fin d, s.asArray (gatherIdx n (key j)) (Fin.castAdd p c) = s.data (gatherIdx n (key j)) c) ∧
    (∀ c : Fin p, s.asArray (gatherIdx n (key j)) (Fin.natAdd d c) = s.supervision (gatherIdx n (key j)) c) := by
  refine ⟨rfl, fun c => ?_, fun c => ?_⟩ <;> simp [SupData.asArray]

example : ((⟨⟨![10, 20, 30], ![1, 0, 3]⟩, ![7, 8, 9]⟩ : SupData 3 ℕ ℕ ℕ).getItem ![-1, 0, 0, 5]).supervision
    = ![9, 7, 7, 9] := by decide

end Coreax
