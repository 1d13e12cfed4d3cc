import Verif.Lemmas.Ridge
import Mathlib.Data.Fintype.EquivFin
import Mathlib.Data.Finset.Card

/-!
# C18, C37: batch sampling and greedy kernel points
-/

set_option linter.unusedSectionVars false

namespace Coreax

open Matrix Spec Ext

/-! ## C37: `sample_batch_indices` -/

/-- Every row of the batches has distinct, in-range entries. -/
theorem C37_rows {num : ℕ} {maxIndex batchSize : ℤ} {perm : Fin num → Fin maxIndex.toNat → ℤ} (hperm : PermContract perm)
    {r : Fin num → Fin batchSize.toNat → ℤ} (h : sampleBatchIndices maxIndex batchSize perm = .ok r) (i : Fin num) :
    Function.Injective (r i) ∧ ∀ t, 0 ≤ r i t ∧ r i t < maxIndex := by
  unfold sampleBatchIndices at h
  split_ifs at h with h1 h2
  rw [Except.ok.injEq] at h
  subst h
  obtain ⟨e, hb, he⟩ := hperm i
  refine ⟨fun t u htu => ?_, fun t => ?_⟩
  · simp only [he] at htu
    have h3 := hb.1 (Fin.ext (by exact_mod_cast htu))
    exact Fin.ext (by simpa using congrArg Fin.val h3)
  · simp only [he]
    have := (e ⟨t, by have := t.2; omega⟩).2
    omega

example (i : Fin 2) := C37_rows (maxIndex := 3) (batchSize := 2) (perm := fun (_ : Fin 2) (t : Fin 3) => (t : ℤ)) (fun _ => ⟨id, Function.bijective_id, fun _ => rfl⟩) rfl i

/-- A full batch contains every index. -/
theorem C37_full {num : ℕ} {size : ℕ} {perm : Fin num → Fin (size : ℤ).toNat → ℤ} (hperm : PermContract perm)
    {r : Fin num → Fin (size : ℤ).toNat → ℤ} (h : sampleBatchIndices (size : ℤ) size perm = .ok r) (i : Fin num) (j : ℤ)
    (hj : 0 ≤ j ∧ j < size) : ∃ t, r i t = j := by
  unfold sampleBatchIndices at h
  split_ifs at h with h1 h2
  rw [Except.ok.injEq] at h
  subst h
  obtain ⟨e, hb, he⟩ := hperm i
  obtain ⟨t, ht⟩ := hb.2 ⟨j.toNat, by omega⟩
  refine ⟨t, ?_⟩
  have := he t
  rw [ht] at this
  refine this.trans ?_
  simp [hj.1]

example (i : Fin 2) := C37_full (size := 3) (perm := fun (_ : Fin 2) (t : Fin 3) => (t : ℤ)) (fun _ => ⟨id, Function.bijective_id, fun _ => rfl⟩) rfl i 2 (by norm_num)

/-- Exactly when `ValueError` is raised. -/
theorem C37_error_iff {num : ℕ} (maxIndex batchSize : ℤ) (perm : Fin num → Fin maxIndex.toNat → ℤ) :
    sampleBatchIndices maxIndex batchSize perm = .error .valueError ↔ maxIndex < batchSize ∨ batchSize < 0 := by
  unfold sampleBatchIndices
  split_ifs with h1 h2
  · simp [h1]
  · simp [h2]
  · simp [h1, h2]

/-- Two batches of two out of three. -/
example : ∃ r, sampleBatchIndices 3 2 (fun (i : Fin 2) (t : Fin 3) => if i = 0 then ((2 - t : ℕ) : ℤ) else (t : ℤ)) = .ok r ∧
    PermContract (fun (i : Fin 2) (t : Fin 3) => if i = 0 then ((2 - t : ℕ) : ℤ) else (t : ℤ)) ∧ r 0 ⟨0, by decide⟩ = 2 ∧
    r 0 ⟨1, by decide⟩ = 1 ∧ r 1 ⟨1, by decide⟩ = 1 := by
  refine ⟨_, rfl, fun i => ?_, rfl, rfl, rfl⟩
  by_cases hi : i = 0
  · exact ⟨![2, 1, 0], by decide, fun t => by subst hi; fin_cases t <;> rfl⟩
  · exact ⟨id, Function.bijective_id, fun t => by simp [hi]⟩

/-! ## C18: greedy kernel points -/

section
variable {K : Type*} [Field K] [LinearOrder K] [IsStrictOrderedRing K] {X : Type*} {n : ℕ}

/-- What a successful run is made of. -/
theorem gkpRefine_run {solve : RlsSolver K} {k : X → X → K} {x : Fin n → X} {y : Fin n → K} {reg : K} {unique : Bool}
    {cb lb : Option ℤ} {size : ℕ} {permC permL : Fin size → Fin n → ℤ} {m0 : ℕ} {c0 : Fin m0 → ℤ}
    {state : Option (Fin (n + 1) → Fin (n + 1) → K)} {c : Data size ℤ K} {G : Fin (n + 1) → Fin (n + 1) → K}
    (h : gkpRefine solve k x y reg unique cb lb size permC permL c0 state = .ok (c, G)) :
    ∃ (p : ℕ) (_ : NeZero p) (batches : Fin size → Fin p → ℤ) (lossBatches : Fin size → Fin (resolveBatch n lb).toNat → ℤ),
      gkpCandidates n cb permC (gkpInitial size c0) = .ok ⟨p, batches⟩ ∧
      sampleBatchIndices (n : ℤ) (resolveBatch n lb) permL = .ok lossBatches ∧
      G = state.getD (padGram k x) ∧ (∀ t, c.weights t = 1) ∧
      ∀ j, StepFact solve G (padVec y) reg unique batches lossBatches (gkpInitial size c0) c.data j := by
  unfold gkpRefine at h
  rcases hc : gkpCandidates n cb permC (gkpInitial size c0) with e | ⟨p, batches⟩
  · simp [hc] at h
  · simp only [hc] at h
    rcases hl : sampleBatchIndices (n : ℤ) (resolveBatch n lb) permL with e | lossBatches
    · simp [hl] at h
    · simp only [hl] at h
      unfold gkpRun at h
      by_cases hp : p = 0
      · simp [hp] at h
      · rw [dif_neg hp] at h
        have hne : NeZero p := ⟨hp⟩
        rcases hs : forLoop size (gkpBody solve (state.getD (padGram k x)) (padVec y) reg unique batches lossBatches)
          (.ok (gkpStart n batches (gkpInitial size c0))) with e | s
        · rw [hs] at h; simp at h
        · rw [hs] at h
          simp only [Except.ok.injEq, Prod.mk.injEq] at h
          obtain ⟨rfl, rfl⟩ := h
          exact ⟨p, hne, batches, lossBatches, rfl, rfl, rfl, fun t => rfl, gkp_loop hs⟩

theorem gkpRun_ok {solve : RlsSolver K} (hs : NumericSolver solve) {size l p : ℕ} (padG : Fin (n + 1) → Fin (n + 1) → K)
    (padY : Fin (n + 1) → K) (reg : K) (unique : Bool) (hp : p ≠ 0) (batches : Fin size → Fin p → ℤ)
    (lossBatches : Fin size → Fin l → ℤ) (init : Fin size → ℤ) :
    ∃ f, gkpRun solve padG padY reg unique batches lossBatches init = .ok f := by
  have hne : NeZero p := ⟨hp⟩
  obtain ⟨s, h⟩ := gkp_loop_ok hs padG padY reg unique batches lossBatches (gkpStart n batches init)
  exact ⟨s.idx, by unfold gkpRun; rw [dif_neg hp, h]⟩

theorem resolveBatch_cases (n : ℕ) (b : Option ℤ) : resolveBatch n b ≤ n ∧
    (resolveBatch n b < 0 ↔ ∃ v, b = some v ∧ v < 0) := by
  rcases b with _ | v
  · simp [resolveBatch]
  · simp only [resolveBatch]
    split_ifs with h
    · exact ⟨le_rfl, by simp; omega⟩
    · exact ⟨by omega, by simp⟩

theorem gkpRefine_ok {solve : RlsSolver K} (hs : NumericSolver solve) (k : X → X → K) (x : Fin n → X) (y : Fin n → K) (reg : K)
    (unique : Bool) (cb lb : Option ℤ) (size : ℕ) (permC permL : Fin size → Fin n → ℤ)
    (state : Option (Fin (n + 1) → Fin (n + 1) → K)) {m0 : ℕ} (c0 : Fin m0 → ℤ) (hn : 0 < n)
    (hc : ¬ ∃ v, cb = some v ∧ v < 0) (hl : ¬ ∃ v, lb = some v ∧ v < 0) :
    ∃ c G, gkpRefine solve k x y reg unique cb lb size permC permL c0 state = .ok (c, G) := by
  obtain ⟨hc1, hc2⟩ := resolveBatch_cases n cb
  obtain ⟨hl1, hl2⟩ := resolveBatch_cases n lb
  have h1 : ¬ resolveBatch n cb < 0 := fun h => hc (hc2.1 h)
  have h2 : ¬ resolveBatch n lb < 0 := fun h => hl (hl2.1 h)
  unfold gkpRefine gkpCandidates sampleBatchIndices
  simp only [not_lt.2 hc1, h1, not_lt.2 hl1, h2, dite_false, if_false]
  by_cases h3 : resolveBatch n cb < n
  · simp only [h3, if_true]
    obtain ⟨f, hf⟩ := gkpRun_ok hs (state.getD (padGram k x)) (padVec y) reg unique
      (p := (resolveBatch n cb).toNat + 1) (by omega)
      (fun i => Fin.snoc (fun t : Fin (resolveBatch n cb).toNat => permC i ⟨t, by have := t.2; omega⟩)
        (gkpInitial size c0 i))
      (fun i (t : Fin (resolveBatch n lb).toNat) => permL i ⟨t, by have := t.2; omega⟩) (gkpInitial size c0)
    exact ⟨_, _, by simp only [hf]; rfl⟩
  · simp only [h3, if_false]
    obtain ⟨f, hf⟩ := gkpRun_ok hs (state.getD (padGram k x)) (padVec y) reg unique
      (p := (resolveBatch n cb).toNat) (by omega)
      (fun i (t : Fin (resolveBatch n cb).toNat) => permC i ⟨t, by have := t.2; omega⟩)
      (fun i (t : Fin (resolveBatch n lb).toNat) => permL i ⟨t, by have := t.2; omega⟩) (gkpInitial size c0)
    exact ⟨_, _, by simp only [hf]; rfl⟩

/-- With a solver that returns numbers, `reduce` raises exactly when the coreset is larger than the data or a batch size is
negative; refining likewise (apart from the size). -/
theorem C18_error_iff {solve : RlsSolver K} (hs : NumericSolver solve) (k : X → X → K) (x : Fin n → X) (y : Fin n → K) (reg : K)
    (unique : Bool) (cb lb : Option ℤ) (size : ℕ) (hsz : 0 < size) (permC permL : Fin size → Fin n → ℤ)
    (state : Option (Fin (n + 1) → Fin (n + 1) → K)) :
    (gkpReduce solve k x y reg unique cb lb size permC permL state = .error .valueError ↔
      n < size ∨ (∃ v, cb = some v ∧ v < 0) ∨ ∃ v, lb = some v ∧ v < 0) ∧
    ∀ {m0 : ℕ} (c0 : Fin m0 → ℤ), 0 < n →
      (gkpRefine solve k x y reg unique cb lb size permC permL c0 state = .error .valueError ↔
        (∃ v, cb = some v ∧ v < 0) ∨ ∃ v, lb = some v ∧ v < 0) := by
  have key : ∀ {m0 : ℕ} (c0 : Fin m0 → ℤ), 0 < n →
      (gkpRefine solve k x y reg unique cb lb size permC permL c0 state = .error .valueError ↔
        (∃ v, cb = some v ∧ v < 0) ∨ ∃ v, lb = some v ∧ v < 0) := by
    intro m0 c0 hn
    obtain ⟨hc1, hc2⟩ := resolveBatch_cases n cb
    obtain ⟨hl1, hl2⟩ := resolveBatch_cases n lb
    by_cases h1 : ∃ v, cb = some v ∧ v < 0
    · have h1' := hc2.2 h1
      simp only [h1, true_or, iff_true]
      unfold gkpRefine gkpCandidates sampleBatchIndices
      simp [h1', not_lt.2 hc1]
    · by_cases h2 : ∃ v, lb = some v ∧ v < 0
      · have h1' : ¬ resolveBatch n cb < 0 := fun h => h1 (hc2.1 h)
        have h2' := hl2.2 h2
        simp only [h2, or_true, iff_true]
        unfold gkpRefine gkpCandidates sampleBatchIndices
        simp only [not_lt.2 hc1, h1', not_lt.2 hl1, h2', dite_false, if_false, if_true]
        by_cases h3 : resolveBatch n cb < n <;> simp [h3]
      · obtain ⟨c, G, h⟩ := gkpRefine_ok hs k x y reg unique cb lb size permC permL state c0 hn h1 h2
        rw [h]
        simp [h1, h2]
  refine ⟨?_, key⟩
  unfold gkpReduce initialCoresubset
  by_cases h : size > n
  · simp only [if_pos h, true_iff]
    exact .inl h
  · rw [if_neg h]
    have := key (fun _ : Fin size => (-1 : ℤ)) (by omega)
    simp only
    rw [this]
    have hns : ¬ n < size := h
    simp [hns]

example := C18_error_iff (K := ℚ) (solve := fun {_ _} _ _ B _ => .ok (B.map Ext.fin)) (fun _ _ B _ => ⟨B, rfl⟩) (fun a b : ℚ => a * b) ![1, 2, 3] ![1, 1, 1] 1 true (some (-2)) none 2 (by norm_num)
  (fun _ t => (t : ℤ)) (fun _ t => (t : ℤ)) none

/-- The cached Gram matrix gives the same run as computing it afresh, and is what the run returns. -/
theorem C18_state (solve : RlsSolver K) (k : X → X → K) (x : Fin n → X) (y : Fin n → K) (reg : K) (unique : Bool)
    (cb lb : Option ℤ) (size : ℕ) (permC permL : Fin size → Fin n → ℤ) {m0 : ℕ} (c0 : Fin m0 → ℤ) (c : Data size ℤ K)
    (G : Fin (n + 1) → Fin (n + 1) → K)
    (h : gkpRefine solve k x y reg unique cb lb size permC permL c0 none = .ok (c, G)) :
    gkpRefine solve k x y reg unique cb lb size permC permL c0 (some G) = .ok (c, G) ∧
    (∀ i j : Fin n, G i.castSucc j.castSucc = k (x i) (x j)) ∧ ∀ i, G (Fin.last n) i = 0 ∧ G i (Fin.last n) = 0 := by
  obtain ⟨-, -, -, -, -, -, hG, -, -⟩ := gkpRefine_run h
  have hG' : G = padGram k x := hG
  subst hG'
  refine ⟨h, fun i j => by simp [padGram], fun i => ⟨by simp [padGram], ?_⟩⟩
  refine Fin.lastCases ?_ (fun i => ?_) i <;> simp [padGram]

theorem step_allowed {solve : RlsSolver K} (hs : NumericSolver solve) {size p l : ℕ} [NeZero p]
    {G : Fin (n + 1) → Fin (n + 1) → K} {Y : Fin (n + 1) → K} {reg : K} {unique : Bool} {batches : Fin size → Fin p → ℤ}
    {lossBatches : Fin size → Fin l → ℤ} {init f : Fin size → ℤ} {j : Fin size}
    (h : StepFact solve G Y reg unique batches lossBatches init f j) :
    ∃ b, f j = batches j b ∧ ((∃ b', Allowed unique (stepIdx f init j) j (batches j b')) →
      Allowed unique (stepIdx f init j) j (f j)) := by
  obtain ⟨L, hL, hf⟩ := h
  obtain ⟨coef, -, hc⟩ := gkpLoss_eq hs G Y reg (stepDiag n init j) (lossBatches j) (stepCand f init batches j)
  rw [hc, Except.ok.injEq] at hL
  subst hL
  obtain ⟨b, hb, h1⟩ := step_choice hf
  exact ⟨b, hb, fun h => (h1 h).1⟩

/-- Among `size ≤ n` positions there is always an index not used at another position. -/
theorem exists_allowed {size : ℕ} (hsz : size ≤ n) (cur : Fin size → ℤ) (j : Fin size) (unique : Bool) :
    ∃ i : Fin n, Allowed unique cur j (i : ℤ) := by
  by_contra hcon
  push Not at hcon
  have h : ∀ i : Fin n, ∃ t : Fin size, t ≠ j ∧ cur t = (i : ℤ) := by
    intro i
    have := hcon i
    unfold Allowed at this
    push Not at this
    obtain ⟨-, h⟩ := this
    obtain ⟨t, ht, he⟩ := h (by omega)
    exact ⟨t, ht, he⟩
  choose g hg using h
  have hinj : Function.Injective g := fun a b hab => by
    have := (hg a).2.symm.trans ((congrArg cur hab).trans (hg b).2)
    exact Fin.ext (by exact_mod_cast this)
  have h1 : (Finset.univ.image g).card = n := by rw [Finset.card_image_of_injective _ hinj]; simp
  have h2 : Finset.univ.image g ⊆ Finset.univ.erase j := by
    intro t ht
    obtain ⟨i, -, rfl⟩ := Finset.mem_image.1 ht
    exact Finset.mem_erase.2 ⟨(hg i).1, Finset.mem_univ _⟩
  have h3 := Finset.card_le_card h2
  rw [h1, Finset.card_erase_of_mem (Finset.mem_univ _)] at h3
  have := j.pos
  simp at h3
  omega

/-- The indices are those of data points when all the data is searched, or when a coreset of the requested size is refined
(whatever the batches). -/
theorem C18_range {solve : RlsSolver K} (hs : NumericSolver solve) {k : X → X → K} {x : Fin n → X} {y : Fin n → K} {reg : K}
    {unique : Bool} {cb lb : Option ℤ} {size : ℕ} {permC permL : Fin size → Fin n → ℤ} (hC : PermContract permC) {m0 : ℕ}
    {c0 : Fin m0 → ℤ} {state : Option (Fin (n + 1) → Fin (n + 1) → K)} {c : Data size ℤ K} {G : Fin (n + 1) → Fin (n + 1) → K}
    (h : gkpRefine solve k x y reg unique cb lb size permC permL c0 state = .ok (c, G))
    (hfull : (∀ b, cb = some b → (n : ℤ) ≤ b) ∨ size ≤ m0 ∧ ∀ t, 0 ≤ c0 t ∧ c0 t < n) :
    ∀ t, c.weights t = 1 ∧ 0 ≤ c.data t ∧ c.data t < n := by
  obtain ⟨p, hp, batches, lossBatches, h1, h2, h3, h4, h5⟩ := gkpRefine_run h
  obtain ⟨f1, f2, f3⟩ := gkpCandidates_facts hC h1
  intro t
  refine ⟨h4 t, ?_⟩
  obtain ⟨b, hb, -⟩ := step_allowed hs (h5 t)
  rw [hb]
  rcases hfull with hfull | ⟨hsz, hr⟩
  · refine (f3 ?_).1 t b
    rcases cb with _ | v
    · rfl
    · have := hfull v rfl
      simp only [resolveBatch]
      split_ifs <;> omega
  · rcases f1 t b with h | h
    · exact h
    · rw [h]
      have ht : (t : ℕ) < m0 := by have := t.2; omega
      simp only [gkpInitial, ht, dite_true]
      exact hr _

/-- With `unique=True` no point is selected twice, provided all the data is searched, or that a coreset without repetitions of
at least the requested size is refined (whatever the batches). -/
theorem C18_distinct {solve : RlsSolver K} (hs : NumericSolver solve) {k : X → X → K} {x : Fin n → X} {y : Fin n → K} {reg : K}
    {cb lb : Option ℤ} {size : ℕ} {permC permL : Fin size → Fin n → ℤ} (hC : PermContract permC) {m0 : ℕ}
    {c0 : Fin m0 → ℤ} {state : Option (Fin (n + 1) → Fin (n + 1) → K)} {c : Data size ℤ K} {G : Fin (n + 1) → Fin (n + 1) → K}
    (h : gkpRefine solve k x y reg true cb lb size permC permL c0 state = .ok (c, G))
    (hfull : ((∀ b, cb = some b → (n : ℤ) ≤ b) ∧ size ≤ n) ∨
      size ≤ m0 ∧ Function.Injective c0 ∧ ∀ t, 0 ≤ c0 t ∧ c0 t < n) :
    Function.Injective c.data := by
  obtain ⟨p, hp, batches, lossBatches, h1, h2, h3, h4, h5⟩ := gkpRefine_run h
  obtain ⟨f1, f2, f3⟩ := gkpCandidates_facts hC h1
  set init := gkpInitial size c0 with hinit
  -- it suffices that there is an allowed candidate at every step
  suffices hall : ∀ j : Fin size, Allowed true (stepIdx c.data init j) j (c.data j) by
    intro t u htu
    by_contra hne
    rcases lt_or_gt_of_ne hne with hlt | hlt
    · refine ((hall u) rfl).2 t hlt.ne ?_
      simp [stepIdx, hlt, htu]
    · refine ((hall t) rfl).2 u hlt.ne ?_
      simp [stepIdx, hlt, htu]
  rcases hfull with ⟨hfull, hsz⟩ | ⟨hsz, hinj, hr⟩
  · intro j
    obtain ⟨b, hb, h6⟩ := step_allowed hs (h5 j)
    refine h6 ?_
    obtain ⟨i, hi⟩ := exists_allowed hsz (stepIdx c.data init j) j true
    have hres : resolveBatch n cb = n := by
      rcases cb with _ | v
      · rfl
      · have := hfull v rfl
        simp only [resolveBatch]
        split_ifs <;> omega
    obtain ⟨b', hb'⟩ := (f3 hres).2 j i
    exact ⟨b', by rw [hb']; exact hi⟩
  · have hin : ∀ t : Fin size, init t = c0 ⟨t, by have := t.2; omega⟩ := fun t => by
      rw [hinit]; unfold gkpInitial; rw [dif_pos (by have := t.2; omega)]
    have hiinj : Function.Injective init := fun t u htu => by
      rw [hin, hin] at htu
      exact Fin.ext (by simpa using hinj htu)
    -- by strong induction: the choice at step `j` is allowed, hence differs from all later initial entries
    have main : ∀ i : ℕ, ∀ j : Fin size, (j : ℕ) = i → Allowed true (stepIdx c.data init j) j (c.data j) := by
      intro i
      induction i using Nat.strong_induction_on with
      | _ i ih =>
        intro j hj
        obtain ⟨b, hb, h6⟩ := step_allowed hs (h5 j)
        refine h6 ?_
        have hrj : InRange n (init j) := by rw [hin]; exact hr _
        obtain ⟨b', hb'⟩ := f2 j hrj
        refine ⟨b', fun _ => ⟨by rw [hb']; have := hrj.1; omega, fun t ht => ?_⟩⟩
        rw [hb']
        by_cases htj : t < j
        · have h7 := (ih t (by rw [Fin.lt_def] at htj; omega) t rfl rfl).2 j htj.ne'
          have h8 : stepIdx c.data init t j = init j := by simp [stepIdx, htj.le]
          rw [h8] at h7
          simp only [stepIdx, htj, if_true]
          exact h7.symm
        · simp only [stepIdx, htj, if_false]
          exact fun he => ht (hiinj he)
    exact fun j => main j j rfl

end
/-- A solver that always returns numbers, three points, and the hypotheses of `C18_state`, `C18_range` and `C18_distinct`. -/
example : ∃ (c : Data 2 ℤ ℚ) (G : Fin 4 → Fin 4 → ℚ),
    gkpRefine (fun {_ _} _ _ B _ => .ok (B.map Ext.fin)) (fun a b : ℚ => a * b) ![1, 2, 3] ![1, 1, 1] 1 true none none 2 (fun _ t => (t : ℤ)) (fun _ t => (t : ℤ)) ![2] (some G) = .ok (c, G) ∧
      (∀ t, 0 ≤ c.data t ∧ c.data t < 3) ∧ Function.Injective c.data := by
  have hs : NumericSolver (K := ℚ) (fun {_ _} _ _ B _ => .ok (B.map Ext.fin)) := fun _ _ B _ => ⟨B, rfl⟩
  have hp : PermContract (fun (_ : Fin 2) (t : Fin 3) => (t : ℤ)) := fun _ => ⟨id, Function.bijective_id, fun _ => rfl⟩
  obtain ⟨c, G, hr⟩ := gkpRefine_ok hs (fun a b : ℚ => a * b) (![1, 2, 3] : Fin 3 → ℚ) ![1, 1, 1] 1 true none none 2 (fun _ t => (t : ℤ)) (fun _ t => (t : ℤ)) none ![2] (by norm_num) (by simp) (by simp)
  exact ⟨c, G, (C18_state _ _ _ _ _ _ _ _ _ _ _ _ c G hr).1, fun t => (C18_range hs hp hr (.inl fun b h => by simp at h) t).2,
    C18_distinct hs hp hr (.inl ⟨fun b h => by simp at h, by norm_num⟩)⟩

end Coreax
