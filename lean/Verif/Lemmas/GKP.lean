import Verif.Model.Batch
import Verif.Spec.Ridge
import Verif.Spec.Kernel
import Verif.Lemmas.LeastSquares
import Verif.Lemmas.Basic
import Verif.Lemmas.RPC
import Verif.Props.LeastSquares

/-!
# Lemmas about `GreedyKernelPoints`
-/

set_option linter.unusedSectionVars false

namespace Coreax

open Matrix Spec Ext

section Argmin
variable {K : Type*} [LinearOrder K]

/-- Without NaN, `argmin` is the first position of the least value. -/
theorem argminNan_spec {p : ℕ} (f : Fin p → Ext K) (hp : 0 < p) (h : ∀ b, f b ≠ Ext.nan) :
    ∃ b : Fin p, argminNan f = (b : ℤ) ∧ ∀ b', (f b).keyMin ≤ (f b').keyMin ∧ (b' < b → (f b).keyMin < (f b').keyMin) := by
  unfold argminNan
  have h1 : (List.finRange p).find? (fun b => (f b).isNan) = none := by
    rw [List.find?_eq_none]
    intro b _
    have := h b
    cases hb : f b <;> simp_all [Ext.isNan]
  rw [h1]
  rcases hm : (List.finRange p).argmin (fun b => (f b).keyMin) with _ | b
  · rw [List.argmin_eq_none] at hm
    exact absurd (List.mem_finRange (⟨0, hp⟩ : Fin p)) (by simp [hm])
  · obtain ⟨-, hmin, hfirst⟩ := List.mem_argmin_iff.1 hm
    refine ⟨b, by simp [hm], fun b' => ⟨hmin b' (List.mem_finRange _), fun hlt => ?_⟩⟩
    by_contra hcon
    have := hfirst b' (List.mem_finRange _) (not_lt.1 hcon)
    rw [List.idxOf_finRange, List.idxOf_finRange] at this
    exact absurd hlt (by simpa using this)

end Argmin

section
variable {K : Type*} [Field K] [LinearOrder K] [IsStrictOrderedRing K]

/-- The coreset indices before step `j`. -/
def stepIdx {size : ℕ} (f init : Fin size → ℤ) (j : Fin size) : Fin size → ℤ := fun t => if t < j then f t else init t

/-- The candidate coresets at step `j`. -/
def stepCand {size p : ℕ} (f init : Fin size → ℤ) (batches : Fin size → Fin p → ℤ) (j : Fin size) : Fin p → Fin size → ℤ :=
  fun b t => if t < j then f t else if t = j then batches t b else init t

/-- The diagonal of the identity at step `j`. -/
def stepDiag {size : ℕ} (n : ℕ) (init : Fin size → ℤ) (j : Fin size) : Fin size → K :=
  fun t => if t ≤ j then 1 else if ((gatherIdx (n + 1) (init t) : Fin (n + 1)) : ℕ) < n then 1 else 0

/-- What a step does, in terms of the final indices. -/
def StepFact (solve : RlsSolver K) {n size p l : ℕ} [NeZero p] (padG : Fin (n + 1) → Fin (n + 1) → K) (padY : Fin (n + 1) → K)
    (reg : K) (unique : Bool) (batches : Fin size → Fin p → ℤ) (lossBatches : Fin size → Fin l → ℤ) (init f : Fin size → ℤ)
    (j : Fin size) : Prop :=
  ∃ L, gkpLoss solve padG padY reg (stepDiag n init j) (lossBatches j) (stepCand f init batches j) = .ok L ∧
    f j = batches j (gatherIdx p (argminNan (gkpMasked unique j (stepIdx f init j) (stepCand f init batches j) L)))

theorem stepFact_congr {solve : RlsSolver K} {n size p l : ℕ} [NeZero p] {padG : Fin (n + 1) → Fin (n + 1) → K}
    {padY : Fin (n + 1) → K} {reg : K} {unique : Bool} {batches : Fin size → Fin p → ℤ} {lossBatches : Fin size → Fin l → ℤ}
    {init f g : Fin size → ℤ} {j : Fin size} (h : ∀ t ≤ j, f t = g t)
    (hf : StepFact solve padG padY reg unique batches lossBatches init f j) :
    StepFact solve padG padY reg unique batches lossBatches init g j := by
  have h1 : stepCand f init batches j = stepCand g init batches j := by
    funext b t
    unfold stepCand
    by_cases ht : t < j
    · rw [if_pos ht, if_pos ht, h t ht.le]
    · rw [if_neg ht, if_neg ht]
  have h2 : stepIdx f init j = stepIdx g init j := by
    funext t
    unfold stepIdx
    by_cases ht : t < j
    · rw [if_pos ht, if_pos ht, h t ht.le]
    · rw [if_neg ht, if_neg ht]
  obtain ⟨L, hL, hc⟩ := hf
  refine ⟨L, by rw [← h1]; exact hL, ?_⟩
  rw [← h j le_rfl, ← h1, ← h2]
  exact hc

/-- The run of the loop, step by step. -/
theorem gkp_loop {solve : RlsSolver K} {n size p l : ℕ} [NeZero p] {padG : Fin (n + 1) → Fin (n + 1) → K}
    {padY : Fin (n + 1) → K} {reg : K} {unique : Bool} {batches : Fin size → Fin p → ℤ} {lossBatches : Fin size → Fin l → ℤ}
    {init : Fin size → ℤ} {s : GkpState size p K}
    (h : forLoop size (gkpBody solve padG padY reg unique batches lossBatches) (.ok (gkpStart n batches init)) = .ok s) :
    ∀ j, StepFact solve padG padY reg unique batches lossBatches init s.idx j := by
  let P : ℕ → Except Err (GkpState size p K) → Prop := fun i s => ∀ s', s = .ok s' →
    (∀ t : Fin size, i ≤ t → s'.idx t = init t) ∧
    (∀ t : Fin size, s'.diag t = if (t : ℕ) < i then 1 else
      if ((gatherIdx (n + 1) (init t) : Fin (n + 1)) : ℕ) < n then 1 else 0) ∧
    (∀ b (t : Fin size), s'.cand b t = if (t : ℕ) < i then s'.idx t else if (t : ℕ) = i then batches t b else init t) ∧
    ∀ j : Fin size, (j : ℕ) < i → StepFact solve padG padY reg unique batches lossBatches init s'.idx j
  have hP := forLoop_inv (P := P) size (gkpBody solve padG padY reg unique batches lossBatches) (.ok (gkpStart n batches init))
    (by
      intro s' hs'
      rw [Except.ok.injEq] at hs'
      subst hs'
      exact ⟨fun t _ => rfl, fun t => by simp [gkpStart], fun b t => by simp [gkpStart], fun j hj => absurd hj (by omega)⟩)
    (by
      intro i s hs s' hs'
      rcases s with e | s
      · simp [gkpBody] at hs'
      · obtain ⟨h1, h2, h3, h4⟩ := hs s rfl
        simp only [gkpBody] at hs'
        have hdiag : Function.update s.diag i 1 = stepDiag n init i := by
          funext t
          by_cases ht : t = i
          · subst ht; simp [stepDiag]
          · have htv : (t : ℕ) ≠ i := fun h => ht (Fin.ext h)
            rw [Function.update_of_ne ht, h2]
            unfold stepDiag
            by_cases htl : (t : ℕ) < i
            · rw [if_pos htl, if_pos (Fin.le_def.2 htl.le)]
            · have hle : ¬ t ≤ i := by rw [Fin.le_def]; omega
              simp only [htl, hle, if_false]
        have hcand : s.cand = stepCand s.idx init batches i := by
          funext b t
          rw [h3]
          unfold stepCand
          simp only [Fin.lt_def, Fin.ext_iff]
        have hidx : s.idx = stepIdx s.idx init i := by
          funext t
          unfold stepIdx
          by_cases htl : t < i
          · rw [if_pos htl]
          · rw [if_neg htl, h1 t (by rw [Fin.lt_def] at htl; omega)]
        rcases hl : gkpLoss solve padG padY reg (Function.update s.diag i 1) (lossBatches i) s.cand with e | L
        · rw [hl] at hs'; simp at hs'
        · rw [hl] at hs'
          simp only [Except.ok.injEq] at hs'
          subst hs'
          simp only [gkpUpdate]
          refine ⟨?_, ?_, ?_, ?_⟩
          · intro t ht
            have : t ≠ i := fun h => by subst h; omega
            rw [Function.update_of_ne this]
            exact h1 t (by omega)
          · intro t
            by_cases ht : t = i
            · subst ht; simp
            · have htv : (t : ℕ) ≠ i := fun h => ht (Fin.ext h)
              rw [Function.update_of_ne ht, h2]
              by_cases htl : (t : ℕ) < i
              · rw [if_pos htl, if_pos (by omega)]
              · have hle : ¬ (t : ℕ) < i + 1 := by omega
                simp only [htl, hle, if_false]
          · intro b t
            by_cases ht : t = i
            · subst ht; simp
            · have htv : (t : ℕ) ≠ i := fun h => ht (Fin.ext h)
              rw [if_neg ht, Function.update_of_ne ht]
              by_cases htl : (t : ℕ) < i
              · rw [if_neg (by omega), if_pos (by omega), h3, if_pos htl]
              · by_cases hti : (t : ℕ) = i + 1
                · rw [if_pos hti, if_neg (by omega), if_pos hti]
                · rw [if_neg hti, if_neg (by omega), if_neg hti, h3, if_neg htl, if_neg htv]
          · intro j hj
            by_cases hji : j = i
            · subst hji
              have : StepFact solve padG padY reg unique batches lossBatches init (Function.update s.idx j
                (batches j (gatherIdx p (argminNan (gkpMasked unique j (stepIdx s.idx init j) (stepCand s.idx init batches j) L)))))
                j := by
                have e1 : ∀ v, stepCand (Function.update s.idx j v) init batches j = stepCand s.idx init batches j := by
                  intro v; funext b t; unfold stepCand
                  by_cases ht : t < j
                  · rw [if_pos ht, if_pos ht, Function.update_of_ne ht.ne]
                  · rw [if_neg ht, if_neg ht]
                have e2 : ∀ v, stepIdx (Function.update s.idx j v) init j = stepIdx s.idx init j := by
                  intro v; funext t; unfold stepIdx
                  by_cases ht : t < j
                  · rw [if_pos ht, if_pos ht, Function.update_of_ne ht.ne]
                  · rw [if_neg ht, if_neg ht]
                refine ⟨L, ?_, ?_⟩
                · rw [e1, ← hcand, ← hdiag]; exact hl
                · rw [e1, e2, Function.update_self]
              refine stepFact_congr (fun t _ => ?_) this
              congr 1
              rw [← hidx, ← hcand]
              have : ∀ b, s.cand b j = batches j b := fun b => by rw [h3]; simp
              rw [this]
            · have hjv : (j : ℕ) < i := by
                have : (j : ℕ) ≠ i := fun h => hji (Fin.ext h)
                omega
              refine stepFact_congr (fun t ht => ?_) (h4 j hjv)
              have : t ≠ i := fun h => by subst h; rw [Fin.le_def] at ht; omega
              rw [Function.update_of_ne this])
  intro j
  exact (hP s h).2.2.2 j j.2

/-- A solver that always returns numbers. -/
def NumericSolver (solve : RlsSolver K) : Prop :=
  ∀ {n q : ℕ} (A : Matrix (Fin n) (Fin n) K) (reg : K) (B : Matrix (Fin n) (Fin q) K) (I : Matrix (Fin n) (Fin n) K),
    ∃ X : Matrix (Fin n) (Fin q) K, solve A reg B I = .ok (X.map Ext.fin)

/-- The loss of a candidate coreset, from its coefficients. -/
theorem gkpLoss_eq {solve : RlsSolver K} (hs : NumericSolver solve) {n size p l : ℕ} (padG : Fin (n + 1) → Fin (n + 1) → K)
    (padY : Fin (n + 1) → K) (reg : K) (diag : Fin size → K) (lossBatch : Fin l → ℤ) (cand : Fin p → Fin size → ℤ) :
    ∃ coef : Fin p → Matrix (Fin size) (Fin 1) K,
      (∀ b, solve (Matrix.of fun t u => padG (gatherIdx (n + 1) (cand b t)) (gatherIdx (n + 1) (cand b u))) |reg|
        (Matrix.of fun t (_ : Fin 1) => padY (gatherIdx (n + 1) (cand b t))) (Matrix.diagonal diag) = .ok ((coef b).map Ext.fin)) ∧
      gkpLoss solve padG padY reg diag lossBatch cand = .ok fun b => fin (∑ j,
        (∑ t, padG (gatherIdx (n + 1) (cand b t)) (gatherIdx (n + 1) (lossBatch j)) * coef b t 0 -
          2 * padY (gatherIdx (n + 1) (lossBatch j))) *
        ∑ t, padG (gatherIdx (n + 1) (cand b t)) (gatherIdx (n + 1) (lossBatch j)) * coef b t 0) := by
  choose coef hcoef using fun b => hs (Matrix.of fun t u => padG (gatherIdx (n + 1) (cand b t)) (gatherIdx (n + 1) (cand b u)))
    |reg| (Matrix.of fun t (_ : Fin 1) => padY (gatherIdx (n + 1) (cand b t))) (Matrix.diagonal diag)
  refine ⟨coef, hcoef, ?_⟩
  have := (collect_ok_iff _ _).2 hcoef
  simp only [gkpLoss, solveStack, this, Matrix.map_apply, fin_mul_fin, sum_fin, fin_sub_fin]

/-- With a numeric solver the loop always succeeds. -/
theorem gkp_loop_ok {solve : RlsSolver K} (hs : NumericSolver solve) {n size p l : ℕ} [NeZero p]
    (padG : Fin (n + 1) → Fin (n + 1) → K) (padY : Fin (n + 1) → K) (reg : K) (unique : Bool)
    (batches : Fin size → Fin p → ℤ) (lossBatches : Fin size → Fin l → ℤ) (s0 : GkpState size p K) :
    ∃ s, forLoop size (gkpBody solve padG padY reg unique batches lossBatches) (.ok s0) = .ok s := by
  refine forLoop_inv (P := fun _ (s : Except Err (GkpState size p K)) => ∃ s', s = .ok s') size _ _ ⟨s0, rfl⟩ ?_
  rintro i s ⟨s, rfl⟩
  obtain ⟨coef, -, h⟩ := gkpLoss_eq hs padG padY reg (Function.update s.diag i 1) (lossBatches i) s.cand
  simp only [gkpBody, h]
  exact ⟨_, rfl⟩

/-- Candidate `c` may be chosen at position `j`. -/
def Allowed {size : ℕ} (unique : Bool) (cur : Fin size → ℤ) (j : Fin size) (c : ℤ) : Prop :=
  unique = true → c ≠ -1 ∧ ∀ t, t ≠ j → cur t ≠ c

/-- The choice of a step with numeric losses: if some candidate is allowed, the choice is the first allowed one of least
loss. -/
theorem step_choice {size p : ℕ} [NeZero p] {unique : Bool} {batches : Fin size → Fin p → ℤ} {init f : Fin size → ℤ}
    {j : Fin size} {v : Fin p → K}
    (hf : f j = batches j (gatherIdx p (argminNan (gkpMasked unique j (stepIdx f init j) (stepCand f init batches j)
      (fun b => fin (v b)))))) :
    ∃ b, f j = batches j b ∧ ((∃ b', Allowed unique (stepIdx f init j) j (batches j b')) →
      Allowed unique (stepIdx f init j) j (f j) ∧
      ∀ b', Allowed unique (stepIdx f init j) j (batches j b') → v b ≤ v b' ∧ (b' < b → v b < v b')) := by
  have hcj : ∀ b, stepCand f init batches j b j = batches j b := fun b => by simp [stepCand]
  have hexcl : ∀ b, (∃ t, Function.update (stepIdx f init j) j (-1) t = stepCand f init batches j b j) ↔
      ¬ (batches j b ≠ -1 ∧ ∀ t, t ≠ j → stepIdx f init j t ≠ batches j b) := by
    intro b
    rw [hcj]
    constructor
    · rintro ⟨t, ht⟩ ⟨h1, h2⟩
      by_cases htj : t = j
      · subst htj
        rw [Function.update_self] at ht
        exact h1 ht.symm
      · rw [Function.update_of_ne htj] at ht
        exact h2 t htj ht
    · intro h
      by_cases h1 : batches j b = -1
      · exact ⟨j, by rw [Function.update_self, h1]⟩
      · have : ¬ ∀ t, t ≠ j → stepIdx f init j t ≠ batches j b := fun h2 => h ⟨h1, h2⟩
        push Not at this
        obtain ⟨t, ht, he⟩ := this
        exact ⟨t, by rw [Function.update_of_ne ht, he]⟩
  set M := gkpMasked unique j (stepIdx f init j) (stepCand f init batches j) (fun b => fin (v b)) with hM
  have hMa : ∀ b, Allowed unique (stepIdx f init j) j (batches j b) → M b = fin (v b) := by
    intro b hb
    rw [hM]
    unfold gkpMasked
    cases unique
    · simp
    · simp only [if_true]
      rw [if_neg (by rw [hexcl]; exact not_not.2 (hb rfl))]
      simp
  have hMn : ∀ b, ¬ Allowed unique (stepIdx f init j) j (batches j b) → M b = pinf := by
    intro b hb
    rw [hM]
    unfold gkpMasked
    cases unique
    · exact absurd (fun h => by simp at h) hb
    · simp only [if_true]
      rw [if_pos (by rw [hexcl]; exact fun h => hb fun _ => h)]
      simp
  have hnan : ∀ b, M b ≠ nan := by
    intro b
    by_cases hb : Allowed unique (stepIdx f init j) j (batches j b)
    · rw [hMa b hb]; simp
    · rw [hMn b hb]; simp
  obtain ⟨b, hb, hmin⟩ := argminNan_spec M (NeZero.pos p) hnan
  rw [hb, gatherIdx_coe] at hf
  refine ⟨b, hf, ?_⟩
  rintro ⟨b0, hb0⟩
  have hball : Allowed unique (stepIdx f init j) j (batches j b) := by
    by_contra hcon
    have := (hmin b0).1
    rw [hMn b hcon, hMa b0 hb0] at this
    simp [Ext.keyMin] at this
  refine ⟨by rw [hf]; exact hball, fun b' hb' => ?_⟩
  have h1 := hmin b'
  rw [hMa b hball, hMa b' hb'] at h1
  simpa [Ext.keyMin] using h1

/-- Index `i` is in the range of a dataset of size `n`. -/
def InRange (n : ℕ) (i : ℤ) : Prop := 0 ≤ i ∧ i < n

theorem inRange_iff {n : ℕ} {i : ℤ} : InRange n i ↔ ∃ j : Fin n, i = (j : ℤ) :=
  ⟨fun h => ⟨⟨i.toNat, by have := h.1; have := h.2; omega⟩, by have := h.1; simp; omega⟩,
    by rintro ⟨j, rfl⟩; exact ⟨by omega, by have := j.2; omega⟩⟩

/-- Facts about the candidates. -/
theorem gkpCandidates_facts {n size p : ℕ} {batch : Option ℤ} {perm : Fin size → Fin n → ℤ} (hperm : PermContract perm)
    {init : Fin size → ℤ} {batches : Fin size → Fin p → ℤ} (h : gkpCandidates n batch perm init = .ok ⟨p, batches⟩) :
    (∀ i b, InRange n (batches i b) ∨ batches i b = init i) ∧
    (∀ i, InRange n (init i) → ∃ b, batches i b = init i) ∧
    (resolveBatch n batch = n → (∀ i b, InRange n (batches i b)) ∧ ∀ i (j : Fin n), ∃ b, batches i b = (j : ℤ)) := by
  unfold gkpCandidates at h
  unfold sampleBatchIndices at h
  by_cases h1 : (n : ℤ) < resolveBatch n batch
  · simp [h1] at h
  · by_cases h2 : resolveBatch n batch < 0
    · simp [h1, h2] at h
    · simp only [h1, h2, dite_false, if_false] at h
      have hle : (resolveBatch n batch).toNat ≤ n := by omega
      have hrange : ∀ i (t : Fin n), InRange n (perm i t) := fun i t => by
        obtain ⟨e, -, he⟩ := hperm i
        rw [inRange_iff]
        exact ⟨e t, he t⟩
      by_cases h3 : resolveBatch n batch < n
      · rw [if_pos h3, Except.ok.injEq] at h
        obtain rfl : (resolveBatch n batch).toNat + 1 = p := congrArg Sigma.fst h
        have h := eq_of_heq (Sigma.mk.inj h).2
        subst h
        refine ⟨fun i b => ?_, fun i _ => ⟨Fin.last _, by simp⟩, fun hf => absurd hf h3.ne⟩
        refine Fin.lastCases ?_ (fun b => ?_) b
        · right; simp
        · left
          simp only [Fin.snoc_castSucc]
          exact hrange i _
      · rw [if_neg h3, Except.ok.injEq] at h
        obtain rfl : (resolveBatch n batch).toNat = p := congrArg Sigma.fst h
        have h := eq_of_heq (Sigma.mk.inj h).2
        subst h
        have hall : ∀ i (j : Fin n), ∃ b : Fin (resolveBatch n batch).toNat, perm i ⟨b, by have := b.2; simp; omega⟩ = (j : ℤ) := by
          intro i j
          obtain ⟨e, hbij, he⟩ := hperm i
          obtain ⟨t, ht⟩ := hbij.2 j
          exact ⟨⟨t, by have := t.2; omega⟩, (he t).trans (by rw [ht])⟩
        refine ⟨fun i b => .inl (hrange i _), fun i hi => ?_, fun _ => ⟨fun i b => hrange i _, hall⟩⟩
        obtain ⟨j, hj⟩ := inRange_iff.1 hi
        rw [hj]
        exact hall i j

end

end Coreax
