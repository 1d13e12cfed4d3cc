import Verif.Model.Basic

/-!
# Lemmas about the JAX primitives
-/

set_option linter.unusedSectionVars false

namespace Coreax

/-- Invariant rule for `forLoop`. -/
theorem forLoop_inv {σ : Type*} {P : ℕ → σ → Prop} : ∀ (t : ℕ) (f : Fin t → σ → σ) (s : σ), P 0 s →
    (∀ (i : Fin t) s, P i s → P (i + 1) (f i s)) → P t (forLoop t f s)
  | 0, _, _, h0, _ => h0
  | t + 1, f, s, h0, hs => by
    have := forLoop_inv t (fun i => f i.castSucc) s h0 (fun i s h => hs i.castSucc s h)
    exact hs (Fin.last t) _ this

/-- Two runs related step by step. -/
theorem forLoop_rel {σ τ : Type*} {P : ℕ → σ → τ → Prop} : ∀ (t : ℕ) (f : Fin t → σ → σ) (g : Fin t → τ → τ)
    (s : σ) (s' : τ), P 0 s s' →
    (∀ (i : Fin t) s s', P i s s' → P (i + 1) (f i s) (g i s')) → P t (forLoop t f s) (forLoop t g s')
  | 0, _, _, _, _, h0, _ => h0
  | t + 1, f, g, s, s', h0, hs => by
    have := forLoop_rel t (fun i => f i.castSucc) (fun i => g i.castSucc) s s' h0 (fun i s h => hs i.castSucc s h)
    exact hs (Fin.last t) _ _ this

section Arg
variable {K : Type*} [LinearOrder K]

/-- If there is a number and no `+inf`, `nanargmax` is the first position of the greatest number. -/
theorem nanargmax_spec {n : ℕ} (f : Fin n → Ext K) (hp : ∀ i, f i ≠ Ext.pinf) (h : ∃ i v, f i = Ext.fin v) :
    ∃ (i : Fin n) (v : K), nanargmax f = (i : ℤ) ∧ f i = Ext.fin v ∧
      ∀ j v', f j = Ext.fin v' → v' ≤ v ∧ (j < i → v' < v) := by
  obtain ⟨i0, v0, h0⟩ := h
  have hne : ¬ ∀ i, f i = Ext.nan := fun hh => by simpa [h0] using hh i0
  unfold nanargmax
  rw [if_neg hne]
  rcases hm : (List.finRange n).argmax (fun i => (f i).keyMax) with _ | i
  · rw [List.argmax_eq_none] at hm
    exact absurd (List.mem_finRange i0) (by simp [hm])
  · obtain ⟨-, hmax, hfirst⟩ := List.mem_argmax_iff.1 hm
    have h1 := hmax i0 (List.mem_finRange _)
    rw [h0] at h1
    rcases hi : f i with _ | _ | v | _
    · rw [hi] at h1; simp [Ext.keyMax] at h1
    · rw [hi] at h1; simp [Ext.keyMax] at h1
    · refine ⟨i, v, rfl, hi, fun j v' hj => ⟨?_, fun hji => ?_⟩⟩
      · have := hmax j (List.mem_finRange _)
        simpa [hi, hj, Ext.keyMax] using this
      · by_contra hcon
        have := hfirst j (List.mem_finRange _) (by simpa [hi, hj, Ext.keyMax] using hcon)
        rw [List.idxOf_finRange, List.idxOf_finRange] at this
        exact absurd hji (by simpa using this)
    · exact absurd hi (hp i)

/-- If there is a number and no `-inf`, `nanargmin` is the first position of the least number. -/
theorem nanargmin_spec {n : ℕ} (f : Fin n → Ext K) (hp : ∀ i, f i ≠ Ext.ninf) (h : ∃ i v, f i = Ext.fin v) :
    ∃ (i : Fin n) (v : K), nanargmin f = (i : ℤ) ∧ f i = Ext.fin v ∧
      ∀ j v', f j = Ext.fin v' → v ≤ v' ∧ (j < i → v < v') := by
  obtain ⟨i0, v0, h0⟩ := h
  have hne : ¬ ∀ i, f i = Ext.nan := fun hh => by simpa [h0] using hh i0
  unfold nanargmin
  rw [if_neg hne]
  rcases hm : (List.finRange n).argmin (fun i => (f i).keyMin) with _ | i
  · rw [List.argmin_eq_none] at hm
    exact absurd (List.mem_finRange i0) (by simp [hm])
  · obtain ⟨-, hmax, hfirst⟩ := List.mem_argmin_iff.1 hm
    have h1 := hmax i0 (List.mem_finRange _)
    rw [h0] at h1
    rcases hi : f i with _ | _ | v | _
    · rw [hi] at h1; simp [Ext.keyMin] at h1
    · exact absurd hi (hp i)
    · refine ⟨i, v, rfl, hi, fun j v' hj => ⟨?_, fun hji => ?_⟩⟩
      · have := hmax j (List.mem_finRange _)
        simpa [hi, hj, Ext.keyMin] using this
      · by_contra hcon
        have := hfirst j (List.mem_finRange _) (by simpa [hi, hj, Ext.keyMin] using hcon)
        rw [List.idxOf_finRange, List.idxOf_finRange] at this
        exact absurd hji (by simpa using this)
    · rw [hi] at h1; simp [Ext.keyMin] at h1

end Arg

/-- In-range gathers are exact. -/
@[simp] theorem gatherIdx_coe {n : ℕ} [NeZero n] (j : Fin n) : gatherIdx n (j : ℤ) = j := by
  unfold gatherIdx
  have h : ¬ ((j : ℕ) : ℤ) < 0 := by omega
  apply Fin.ext
  simp only [h, if_false, Int.toNat_natCast]
  have := j.2
  omega

/-- In-range scatters are exact. -/
@[simp] theorem scatterIdx_coe {n : ℕ} (j : Fin n) : scatterIdx n (j : ℤ) = some j := by
  unfold scatterIdx
  have h : ¬ ((j : ℕ) : ℤ) < 0 := by omega
  have h2 : (0 : ℤ) ≤ ((j : ℕ) : ℤ) ∧ ((j : ℕ) : ℤ) < n := ⟨by omega, by have := j.2; omega⟩
  simp only [h, if_false, dif_pos h2]
  congr 1

@[simp] theorem setAt_coe {n : ℕ} {α : Type*} (a : Fin n → α) (j : Fin n) (v : α) :
    setAt a (j : ℤ) v = Function.update a j v := by
  simp [setAt]

/-- What a scatter with in-range indices leaves at position `j`. -/
theorem scatterSet_cases {n m : ℕ} {α : Type*} (ord : List (Fin m)) (a : Fin n → α) (g : Fin m → Fin n)
    (vals : Fin m → α) (j : Fin n) :
    (scatterSet ord a (fun t => (g t : ℤ)) vals j = a j ∧ ∀ t ∈ ord, g t ≠ j) ∨
      ∃ t ∈ ord, g t = j ∧ scatterSet ord a (fun t => (g t : ℤ)) vals j = vals t := by
  induction ord using List.reverseRecOn with
  | nil => left; simp [scatterSet]
  | append_singleton l t ih =>
    have e : scatterSet (l ++ [t]) a (fun t => (g t : ℤ)) vals
        = Function.update (scatterSet l a (fun t => (g t : ℤ)) vals) (g t) (vals t) := by
      simp [scatterSet]
    rw [e]
    by_cases hj : g t = j
    · right
      exact ⟨t, by simp, hj, by rw [hj]; simp⟩
    · rw [Function.update_of_ne (fun h => hj h.symm)]
      rcases ih with ⟨h1, h2⟩ | ⟨t', h1, h2, h3⟩
      · left
        exact ⟨h1, fun t' ht' => by
          rcases List.mem_append.1 ht' with h | h
          · exact h2 t' h
          · rw [List.mem_singleton.1 h]; exact hj⟩
      · right
        exact ⟨t', by simp [h1], h2, h3⟩

/-! ### Arithmetic of `Ext` on the values that occur -/

namespace Ext
variable {K : Type*} [Field K] [LinearOrder K]

@[simp] theorem fin_add_fin (x y : K) : (fin x + fin y : Ext K) = fin (x + y) := rfl
@[simp] theorem neg_fin (x : K) : (-(fin x) : Ext K) = fin (-x) := rfl
@[simp] theorem fin_sub_fin (x y : K) : (fin x - fin y : Ext K) = fin (x - y) := by
  show fin x + -(fin y) = _
  simp [sub_eq_add_neg]
@[simp] theorem pinf_add_fin (y : K) : (pinf + fin y : Ext K) = pinf := rfl
@[simp] theorem fin_add_pinf (y : K) : (fin y + pinf : Ext K) = pinf := rfl
@[simp] theorem nan_add (y : Ext K) : (nan + y : Ext K) = nan := by cases y <;> rfl
@[simp] theorem add_nan (y : Ext K) : (y + nan : Ext K) = nan := by cases y <;> rfl
@[simp] theorem pinf_sub_fin (y : K) : (pinf - fin y : Ext K) = pinf := rfl
@[simp] theorem fin_sub_pinf (y : K) : (fin y - pinf : Ext K) = ninf := rfl
@[simp] theorem fin_sub_nan (y : K) : (fin y - nan : Ext K) = nan := rfl
@[simp] theorem nan_sub_fin (y : K) : (nan - fin y : Ext K) = nan := rfl
@[simp] theorem fin_mul_fin (x y : K) : (fin x * fin y : Ext K) = fin (x * y) := rfl
@[simp] theorem fin_mul_nan (x : K) : (fin x * nan : Ext K) = nan := rfl
theorem fin_mul_pinf {x : K} (h : 0 < x) : (fin x * pinf : Ext K) = pinf := by
  show signMul x pinf = pinf
  simp [signMul, h, h.ne']
theorem fin_div_fin {y : K} (h : y ≠ 0) (x : K) : (fin x / fin y : Ext K) = fin (x / y) := by
  show div (fin x) (fin y) = _
  simp [div, h]
theorem pinf_div_fin {y : K} (h : 0 ≤ y) : (pinf / fin y : Ext K) = pinf := by
  show div pinf (fin y) = _
  simp [div, h]
@[simp] theorem nan_div (y : Ext K) : (nan / y : Ext K) = nan := by cases y <;> rfl

end Ext

end Coreax
