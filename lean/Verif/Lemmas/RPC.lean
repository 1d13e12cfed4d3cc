import Verif.Model.Random
import Verif.Lemmas.Basic
import Verif.Spec.Nystrom
import Mathlib.Analysis.Real.Sqrt

/-!
# Lemmas about randomly pivoted Cholesky
-/

set_option linter.unusedSectionVars false

namespace Coreax

namespace Ext
variable {K : Type*} [Field K] [LinearOrder K] [IsStrictOrderedRing K]

theorem mul_self_cases (c : Ext K) : c * c = nan ∨ (∃ v, 0 ≤ v ∧ c * c = fin v) ∨ c * c = pinf := by
  rcases c with _ | _ | v | _
  · exact Or.inl rfl
  · exact Or.inr (Or.inr rfl)
  · exact Or.inr (Or.inl ⟨v * v, mul_self_nonneg v, rfl⟩)
  · exact Or.inr (Or.inr rfl)

@[simp] theorem sum_fin {m : ℕ} (f : Fin m → K) : Ext.sum (fun t => fin (f t)) = fin (∑ t, f t) := by
  have h : ∀ (l : List K) (a : K), (l.map fin).foldl (· + ·) (fin a) = (fin (a + l.sum) : Ext K) := by
    intro l
    induction l with
    | nil => intro a; simp
    | cons b l ih => intro a; simp [ih, add_assoc]
  have := h (List.ofFn f) 0
  rw [List.map_ofFn, List.sum_ofFn, zero_add] at this
  exact this

end Ext

section
variable {X K : Type*} [Field K] [LinearOrder K] [IsStrictOrderedRing K] {n : ℕ} [NeZero n] {size : ℕ}

open Ext

/-- What is needed of the square root for the control flow. -/
def RootPos (root : K → K) : Prop := root 0 = 0 ∧ ∀ v, 0 < v → 0 < root v

/-- The body once the pivot is known. -/
theorem rpcBody_eq (root : K → K) (k : X → X → K) (x : Fin n → X) (unique : Bool) (draw : PivotDraw n K)
    (i : Fin size) (s : RPCState n size K) {p : Fin n} (hp : draw i (validResiduals s) = p) :
    (rpcBody root k x unique draw i s).idx = Function.update s.idx i (p : ℤ) ∧
    ∀ j, (rpcBody root k x unique draw i s).residual j =
      if unique = true ∧ j = p then fin 0 else
        max0 (s.residual j -
          pivotColumn k x s.approx p j / Ext.sqrt root (pivotColumn k x s.approx p p) *
          (pivotColumn k x s.approx p j / Ext.sqrt root (pivotColumn k x s.approx p p))) := by
  refine ⟨?_, fun j => ?_⟩
  · simp only [rpcBody, hp]
  · simp only [rpcBody, hp, gatherIdx_coe]
    cases unique
    · simp
    · by_cases hj : j = p
      · simp [hj]
      · simp [hj]

theorem rpcBody_approx (root : K → K) (k : X → X → K) (x : Fin n → X) (unique : Bool) (draw : PivotDraw n K)
    (i : Fin size) (s : RPCState n size K) {p : Fin n} (hp : draw i (validResiduals s) = p) (j : Fin n) :
    (rpcBody root k x unique draw i s).approx j = Function.update (s.approx j) i
      (pivotColumn k x s.approx p j / Ext.sqrt root (pivotColumn k x s.approx p p)) := by
  simp only [rpcBody, hp, gatherIdx_coe]

/-- Subtracting a square and clipping does not increase. -/
theorem clip_le {r : Ext K} {b : K} (hr : r = nan ∨ ∃ v, 0 ≤ v ∧ v ≤ b ∧ r = fin v) (c : Ext K) :
    max0 (r - c * c) = nan ∨ ∃ v, 0 ≤ v ∧ v ≤ b ∧ max0 (r - c * c) = fin v := by
  rcases hr with rfl | ⟨v, hv, hb, rfl⟩
  · left
    have : (nan - c * c : Ext K) = nan := nan_add _
    rw [this]; rfl
  · rcases mul_self_cases c with h | ⟨u, hu, h⟩ | h
    · left; rw [h]; rfl
    · right
      refine ⟨max 0 (v - u), le_max_left _ _, max_le (hv.trans hb) (by linarith), ?_⟩
      rw [h, fin_sub_fin]; rfl
    · right
      exact ⟨0, le_refl _, hv.trans hb, by rw [h]; rfl⟩

/-- The availability mask, for indices of which the first `i` are in range and the others outside. -/
theorem uniformProbs_spec {idx : Fin size → ℤ} {i : ℕ} (hi : i < size) (hs : size ≤ n)
    (h1 : ∀ t : Fin size, (t : ℕ) < i → ∃ j : Fin n, idx t = j) (h2 : ∀ t : Fin size, i ≤ t → idx t = (n : ℤ) + 1) :
    (∀ j : Fin n, ∃ v, 0 ≤ v ∧ (uniformProbs idx j : Ext K) = fin v) ∧
    (∃ (j : Fin n) (v : K), 0 < v ∧ (uniformProbs idx j : Ext K) = fin v) ∧
    ∀ (j : Fin n) (v : K), 0 < v → (uniformProbs idx j : Ext K) = fin v → ∀ t : Fin size, (t : ℕ) < i → idx t ≠ j := by
  classical
  set free : Finset (Fin n) := Finset.univ.filter
    (fun j => (!decide (∃ t, scatterIdx n (idx t) = some j)) = true) with hfree
  have hmask : ∀ j, j ∈ free ↔ ∀ t, scatterIdx n (idx t) ≠ some j := by intro j; simp [hfree]
  have hout : ∀ t : Fin size, i ≤ t → scatterIdx n (idx t) = none := by
    intro t ht
    rw [h2 t ht]
    simp only [scatterIdx]
    rw [dif_neg]
    split_ifs <;> omega
  have hpos : 0 < free.card := by
    by_contra hcon
    have hall : ∀ j : Fin n, ∃ t : Fin size, (t : ℕ) < i ∧ idx t = (j : ℤ) := by
      intro j
      have hj : j ∉ free := by
        have : free = ∅ := Finset.card_eq_zero.1 (by omega)
        simp [this]
      rw [hmask] at hj
      push Not at hj
      obtain ⟨t, ht⟩ := hj
      have hti : (t : ℕ) < i := by
        by_contra hc
        rw [hout t (by omega)] at ht
        exact absurd ht (by simp)
      obtain ⟨j', hj'⟩ := h1 t hti
      rw [hj', scatterIdx_coe] at ht
      have : j' = j := by simpa using ht
      exact ⟨t, hti, by rw [hj', this]⟩
    choose f hf hfe using hall
    have hinj : Function.Injective (fun j => (⟨f j, hf j⟩ : Fin i)) := by
      intro a b hab
      have hab' : (f a : ℕ) = f b := by simpa [Fin.ext_iff] using hab
      have : f a = f b := Fin.ext hab'
      have h := hfe a
      rw [this, hfe b] at h
      exact Fin.ext (by exact_mod_cast h.symm)
    have := Fintype.card_le_of_injective _ hinj
    simp at this
    omega
  have hK : (free.card : K) ≠ 0 := by exact_mod_cast hpos.ne'
  have hval : ∀ j, (uniformProbs idx j : Ext K) = fin ((if j ∈ free then 1 else 0) / (free.card : K)) := by
    intro j
    have : (uniformProbs idx j : Ext K) = Ext.fin (if j ∈ free then 1 else 0) / Ext.fin (free.card : K) := by
      simp only [uniformProbs, hfree, Finset.mem_filter, Finset.mem_univ, true_and]
    rw [this, fin_div_fin hK]
  have hKp : (0 : K) < free.card := by exact_mod_cast hpos
  refine ⟨fun j => ⟨_, by positivity, hval j⟩, ?_, ?_⟩
  · obtain ⟨j, hj⟩ := Finset.card_pos.1 hpos
    exact ⟨j, 1 / (free.card : K), by positivity, by rw [hval j, if_pos hj]⟩
  · intro j v hv hj t ht hcon
    rw [hval j] at hj
    by_cases hm : j ∈ free
    · exact (hmask j).1 hm t (by rw [hcon, scatterIdx_coe])
    · rw [if_neg hm, zero_div] at hj
      have : (0 : K) = v := by simpa using hj
      exact hv.ne this

/-- Every pivot: it exists, and it is new if all the previous pivots have residual zero or NaN. -/
theorem pivot_spec {draw : PivotDraw n K} (hd : PivotContract draw) {s : RPCState n size K} {i : Fin size} (hs : size ≤ n)
    (h1 : ∀ t, t < i → ∃ j : Fin n, s.idx t = j) (h2 : ∀ t, i ≤ t → s.idx t = (n : ℤ) + 1)
    (hr : ∀ j, s.residual j = nan ∨ ∃ v, 0 ≤ v ∧ s.residual j = fin v) :
    ∃ p : Fin n, draw i (validResiduals s) = p ∧
      (((∀ t, t < i → s.idx t ≠ p) ∧ ((∀ j, s.residual j = fin 0) ∨ ∃ j, s.residual j = nan)) ∨
        ((∀ j, ∃ v, 0 ≤ v ∧ s.residual j = fin v) ∧ ∃ v, 0 < v ∧ s.residual p = fin v)) := by
  obtain ⟨u1, u2, u3⟩ := uniformProbs_spec (K := K) i.2 hs (fun t ht => h1 t ht) (fun t ht => h2 t ht)
  by_cases hbad : (∀ j, s.residual j = fin 0) ∨ (∃ j, s.residual j = nan)
  · have hv : validResiduals s = uniformProbs s.idx := by simp only [validResiduals, if_pos hbad]
    obtain ⟨p, v, hp, hv', hpv⟩ := hd i (uniformProbs s.idx) u1 u2
    exact ⟨p, by rw [hv]; exact hp, Or.inl ⟨fun t ht => u3 p v hv' hpv t ht, hbad⟩⟩
  · have hv : validResiduals s = s.residual := by simp only [validResiduals, if_neg hbad]
    push Not at hbad
    have hfin : ∀ j, ∃ v, 0 ≤ v ∧ s.residual j = fin v := fun j => (hr j).resolve_left (hbad.2 j)
    have hsome : ∃ j v, 0 < v ∧ s.residual j = fin v := by
      obtain ⟨j, hj⟩ := hbad.1
      obtain ⟨v, hv0, hv⟩ := hfin j
      exact ⟨j, v, lt_of_le_of_ne hv0 (fun h => hj (by rw [hv, ← h])), hv⟩
    obtain ⟨p, v, hp, hv', hpv⟩ := hd i s.residual hfin hsome
    exact ⟨p, by rw [hv]; exact hp, Or.inr ⟨hfin, v, hv', hpv⟩⟩

/-- Invariant of the loop for every kernel with non-negative diagonal. -/
structure RPCInv (unique : Bool) (b : Fin n → K) (i : ℕ) (s : RPCState n size K) : Prop where
  done : ∀ t : Fin size, (t : ℕ) < i → ∃ j : Fin n, s.idx t = j
  todo : ∀ t : Fin size, i ≤ t → s.idx t = (n : ℤ) + 1
  res : ∀ j, s.residual j = nan ∨ ∃ v, 0 ≤ v ∧ v ≤ b j ∧ s.residual j = fin v
  zero : unique = true → ∀ (t : Fin size) (j : Fin n), (t : ℕ) < i → s.idx t = j → s.residual j = nan ∨ s.residual j = fin 0
  inj : unique = true → ∀ t u : Fin size, (t : ℕ) < i → (u : ℕ) < i → s.idx t = s.idx u → t = u

theorem rpcInv_step {root : K → K} {k : X → X → K} {x : Fin n → X} {unique : Bool} {draw : PivotDraw n K}
    (hd : PivotContract draw) (hs : size ≤ n) {b : Fin n → K} (hb : ∀ j, 0 ≤ b j) {i : Fin size} {s : RPCState n size K}
    (h : RPCInv unique b i s) : RPCInv unique b (i + 1) (rpcBody root k x unique draw i s) := by
  obtain ⟨p, hp, hpn⟩ := pivot_spec hd hs (fun t ht => h.done t ht) (fun t ht => h.todo t ht)
    (fun j => (h.res j).imp id (fun ⟨v, h0, _, h1⟩ => ⟨v, h0, h1⟩))
  obtain ⟨hidx, hres⟩ := rpcBody_eq root k x unique draw i s hp
  have hnew : unique = true → ∀ t, t < i → s.idx t ≠ p := by
    intro hu t ht hcon
    rcases hpn with ⟨hpn, -⟩ | ⟨-, v, hv, hpv⟩
    · exact hpn t ht hcon
    · rcases h.zero hu t p ht hcon with h0 | h0
      · rw [hpv] at h0; exact absurd h0 (by simp)
      · rw [hpv] at h0
        have : v = 0 := by simpa using h0
        exact hv.ne' this
  have hold : ∀ t : Fin size, t ≠ i → (rpcBody root k x unique draw i s).idx t = s.idx t := by
    intro t ht; rw [hidx, Function.update_of_ne ht]
  have hnow : (rpcBody root k x unique draw i s).idx i = p := by rw [hidx, Function.update_self]
  have hsplit : ∀ t : Fin size, (t : ℕ) < i + 1 → t = i ∨ t ≠ i ∧ t < i := by
    intro t ht
    by_cases hti : t = i
    · exact Or.inl hti
    · refine Or.inr ⟨hti, ?_⟩
      rw [Fin.lt_def]
      have : (t : ℕ) ≠ i := fun h => hti (Fin.ext h)
      omega
  refine ⟨?_, ?_, ?_, ?_, ?_⟩
  · intro t ht
    rcases hsplit t ht with rfl | ⟨h1, h2⟩
    · exact ⟨p, hnow⟩
    · rw [hold t h1]; exact h.done t h2
  · intro t ht
    rw [hold t (by rintro rfl; omega)]
    exact h.todo t (by omega)
  · intro j
    rw [hres]
    split_ifs with hj
    · exact Or.inr ⟨0, le_refl _, hb j, rfl⟩
    · exact clip_le (h.res j) _
  · intro hu t j ht hj
    rw [hres]
    split_ifs with hc
    · exact Or.inr rfl
    · rcases hsplit t ht with rfl | ⟨h1, h2⟩
      · rw [hnow] at hj
        have : j = p := Fin.ext (by exact_mod_cast hj.symm)
        exact absurd ⟨hu, this⟩ hc
      · rw [hold t h1] at hj
        rcases clip_le (b := 0) ((h.zero hu t j h2 hj).imp id (fun h => ⟨0, le_refl _, le_refl _, h⟩))
          (pivotColumn k x s.approx p j / Ext.sqrt root (pivotColumn k x s.approx p p)) with h | ⟨v, h0, h1, h⟩
        · exact Or.inl h
        · right; rw [h, le_antisymm h1 h0]
  · intro hu t u ht hu' htu
    rcases hsplit t ht with rfl | ⟨h1, h2⟩ <;> rcases hsplit u hu' with rfl | ⟨h3, h4⟩
    · rfl
    · rw [hnow, hold u h3] at htu
      exact absurd htu.symm (hnew hu u h4)
    · rw [hnow, hold t h1] at htu
      exact absurd htu (hnew hu t h2)
    · rw [hold t h1, hold u h3] at htu
      exact h.inj hu t u h2 h4 htu

/-- The loop, for every kernel with non-negative diagonal. -/
theorem rpcInv_loop {root : K → K} {k : X → X → K} {x : Fin n → X} {unique : Bool} {draw : PivotDraw n K}
    (hd : PivotContract draw) (hs : size ≤ n) {b : Fin n → K} (hb : ∀ j, 0 ≤ b j) {state : Option (Fin n → Ext K)}
    (h0 : ∀ j, rpcDiagonal k x state j = nan ∨ ∃ v, 0 ≤ v ∧ v ≤ b j ∧ rpcDiagonal k x state j = fin v) :
    RPCInv unique b size (rpcLoop root k x unique draw size state (fun _ => (n : ℤ) + 1)) :=
  forLoop_inv (P := RPCInv unique b) size _ _
    ⟨fun t ht => absurd ht (by omega), fun _ _ => rfl, h0, fun _ t _ ht => absurd ht (by omega),
      fun _ t _ ht => absurd ht (by omega)⟩
    (fun _ _ h => rpcInv_step hd hs hb h)

theorem rpcReduce_ok (root : K → K) (k : X → X → K) (x : Fin n → X) (unique : Bool) (draw : PivotDraw n K)
    (hs : size ≤ n) (state : Option (Fin n → Ext K)) :
    rpcReduce root k x unique draw size state =
      .ok (⟨(rpcLoop root k x unique draw size state (fun _ => (n : ℤ) + 1)).idx, fun _ => 1⟩,
        (rpcLoop root k x unique draw size state (fun _ => (n : ℤ) + 1)).residual) := by
  simp only [rpcReduce, initialCoresubset]
  rw [if_neg (by omega)]

/-! ### Live and collapsed states -/

/-- Every residual is zero or NaN. -/
def Dead (s : RPCState n size K) : Prop := ∀ j, s.residual j = nan ∨ s.residual j = fin 0

theorem dead_step {root : K → K} {k : X → X → K} {x : Fin n → X} {unique : Bool} {draw : PivotDraw n K}
    {i : Fin size} {s : RPCState n size K} {p : Fin n} (hp : draw i (validResiduals s) = p) (h : Dead s) :
    Dead (rpcBody root k x unique draw i s) := by
  intro j
  rw [(rpcBody_eq root k x unique draw i s hp).2]
  split_ifs
  · exact Or.inr rfl
  · rcases clip_le (b := 0) ((h j).imp id (fun h => ⟨0, le_refl _, le_refl _, h⟩))
      (pivotColumn k x s.approx p j / Ext.sqrt root (pivotColumn k x s.approx p p)) with h | ⟨v, h0, h1, h⟩
    · exact Or.inl h
    · right; rw [h, le_antisymm h1 h0]

theorem pivotColumn_fin {k : X → X → K} {x : Fin n → X} {s : RPCState n size K} {F : Fin n → Fin size → K}
    (hF : ∀ j t, s.approx j t = fin (F j t)) (p j : Fin n) :
    pivotColumn k x s.approx p j = fin (k (x j) (x p) - ∑ t, F j t * F p t) := by
  simp only [pivotColumn, gatherIdx_coe, hF, fin_mul_fin, sum_fin, fin_sub_fin]

/-- A pivot that is not positive in the exact residual makes the state collapse. -/
theorem dead_of_pivot {root : K → K} (hroot : RootPos root) {k : X → X → K} {x : Fin n → X} {unique : Bool}
    {draw : PivotDraw n K} {i : Fin size} {s : RPCState n size K} {p : Fin n} (hp : draw i (validResiduals s) = p)
    {F : Fin n → Fin size → K} (hF : ∀ j t, s.approx j t = fin (F j t))
    (hr : ∀ j, ∃ v, 0 ≤ v ∧ s.residual j = fin v) (hg : k (x p) (x p) - ∑ t, F p t * F p t ≤ 0) :
    Dead (rpcBody root k x unique draw i s) := by
  intro j
  rw [(rpcBody_eq root k x unique draw i s hp).2]
  split_ifs
  · exact Or.inr rfl
  · obtain ⟨v, hv, hr⟩ := hr j
    rw [pivotColumn_fin hF, pivotColumn_fin hF, hr]
    generalize k (x j) (x p) - ∑ t, F j t * F p t = a
    rcases hg.lt_or_eq with hg | hg
    · left
      simp only [Ext.sqrt, if_pos hg]
      rfl
    · rw [hg]
      simp only [Ext.sqrt, lt_irrefl, if_false, hroot.1]
      rcases lt_trichotomy a 0 with ha | ha | ha
      · right
        have : (fin a / fin 0 : Ext K) = ninf := by
          change Ext.div _ _ = _
          simp [Ext.div, ha.ne, not_lt.2 ha.le]
        rw [this]; rfl
      · left
        have : (fin a / fin 0 : Ext K) = nan := by
          change Ext.div _ _ = _
          simp [Ext.div, ha]
        rw [this]; rfl
      · right
        have : (fin a / fin 0 : Ext K) = pinf := by
          change Ext.div _ _ = _
          simp [Ext.div, ha.ne', ha]
        rw [this]; rfl

/-- A regular step. -/
theorem live_step {root : K → K} (hroot : RootPos root) {k : X → X → K} {x : Fin n → X} {unique : Bool}
    {draw : PivotDraw n K} {i : Fin size} {s : RPCState n size K} {p : Fin n} (hp : draw i (validResiduals s) = p)
    {F : Fin n → Fin size → K} (hF : ∀ j t, s.approx j t = fin (F j t)) {r : Fin n → K}
    (hr : ∀ j, s.residual j = fin (r j)) (hg : 0 < k (x p) (x p) - ∑ t, F p t * F p t) :
    let c : Fin n → K := fun j => (k (x j) (x p) - ∑ t, F j t * F p t) / root (k (x p) (x p) - ∑ t, F p t * F p t)
    (∀ j t, (rpcBody root k x unique draw i s).approx j t = fin (Function.update (F j) i (c j) t)) ∧
    ∀ j, (rpcBody root k x unique draw i s).residual j =
      fin (if unique = true ∧ j = p then 0 else max 0 (r j - c j * c j)) := by
  intro c
  have hc : ∀ j, pivotColumn k x s.approx p j / Ext.sqrt root (pivotColumn k x s.approx p p) = fin (c j) := by
    intro j
    rw [pivotColumn_fin hF, pivotColumn_fin hF]
    simp only [Ext.sqrt, if_neg (not_lt.2 hg.le)]
    rw [fin_div_fin (hroot.2 _ hg).ne']
  refine ⟨fun j t => ?_, fun j => ?_⟩
  · rw [rpcBody_approx root k x unique draw i s hp, hc]
    by_cases ht : t = i
    · subst ht; simp
    · rw [Function.update_of_ne ht, Function.update_of_ne ht, hF]
  · rw [(rpcBody_eq root k x unique draw i s hp).2, hc, hr]
    split_ifs
    · rfl
    · simp only [fin_mul_fin, fin_sub_fin]; rfl

/-- A finite state. -/
def Live (s : RPCState n size K) : Prop :=
  (∃ F : Fin n → Fin size → K, ∀ j t, s.approx j t = fin (F j t)) ∧ ∀ j, ∃ v, 0 ≤ v ∧ s.residual j = fin v

/-- From a finite state a step leads to a finite state or to a collapsed one. -/
theorem live_or_dead {root : K → K} (hroot : RootPos root) {k : X → X → K} {x : Fin n → X} {unique : Bool}
    {draw : PivotDraw n K} {i : Fin size} {s : RPCState n size K} {p : Fin n} (hp : draw i (validResiduals s) = p)
    (h : Live s) : Live (rpcBody root k x unique draw i s) ∨ Dead (rpcBody root k x unique draw i s) := by
  obtain ⟨⟨F, hF⟩, hr⟩ := h
  rcases le_or_gt (k (x p) (x p) - ∑ t, F p t * F p t) 0 with hg | hg
  · exact Or.inr (dead_of_pivot hroot hp hF hr hg)
  · left
    choose r hr0 hr using hr
    have := live_step hroot (unique := unique) hp hF hr hg
    refine ⟨⟨_, this.1⟩, fun j => ⟨_, ?_, this.2 j⟩⟩
    split_ifs
    · exact le_refl _
    · exact le_max_left _ _

end

end Coreax
