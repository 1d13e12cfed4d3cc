import Verif.Lemmas.GkpMulti
import Verif.Props.GKPLoss
import Mathlib.Tactic.FinCases

/-!
# C76: greedy kernel points with several responses
-/

namespace Coreax

open Spec Matrix Ext

section
variable {K : Type*} [Field K] [LinearOrder K] [IsStrictOrderedRing K] {X : Type*} {n q : ℕ}

/-- With one response the general model is that of `Verif/Model/Batch.lean`: all of C18 applies. -/
theorem C76_single (solve : RlsSolver K) (k : X → X → K) (x : Fin n → X) (y : Fin n → Fin (0 + 1) → K) (reg : K) (unique : Bool)
    (cb lb : Option ℤ) (size : ℕ) (permC permL : Fin size → Fin n → ℤ) (state : Option (Fin (n + 1) → Fin (n + 1) → K)) :
    gkpReduceMulti solve k x y reg unique cb lb size permC permL state =
      gkpReduce solve k x (fun i => y i 0) reg unique cb lb size permC permL state ∧
    ∀ {m0 : ℕ} (c : Fin m0 → ℤ), gkpRefineMulti solve k x y reg unique cb lb size permC permL c state =
      gkpRefine solve k x (fun i => y i 0) reg unique cb lb size permC permL c state := by
  have hpad : (fun i => padRows y i 0) = padVec (fun i => y i 0) := by
    funext i
    refine Fin.lastCases ?_ (fun i => ?_) i <;> simp [padRows, padVec]
  have hbody : ∀ {p l : ℕ} [NeZero p] (padG : Fin (n + 1) → Fin (n + 1) → K) (batches : Fin size → Fin p → ℤ)
      (lossBatches : Fin size → Fin l → ℤ), gkpBodyMulti solve padG (padRows y) reg unique batches lossBatches =
        gkpBody solve padG (padVec fun i => y i 0) reg unique batches lossBatches := by
    intro p l _ padG batches lossBatches
    funext i s
    rcases s with e | s
    · rfl
    · unfold gkpBodyMulti gkpBody
      simp only [gkpLossMulti_single, hpad]
      rcases gkpLoss solve padG _ reg _ _ _ with e | loss <;> rfl
  have href : ∀ {m0 : ℕ} (c : Fin m0 → ℤ), gkpRefineMulti solve k x y reg unique cb lb size permC permL c state =
      gkpRefine solve k x (fun i => y i 0) reg unique cb lb size permC permL c state := by
    intro m0 c
    unfold gkpRefineMulti gkpRefine
    rcases gkpCandidates n cb permC (gkpInitial size c) with e | batches
    · rfl
    · rcases sampleBatchIndices (n : ℤ) (resolveBatch n lb) permL with e | lossBatches
      · rfl
      · have hrun : gkpRunMulti solve (state.getD (padGram k x)) (padRows y) reg unique batches.2 lossBatches (gkpInitial size c) =
            gkpRun solve (state.getD (padGram k x)) (padVec fun i => y i 0) reg unique batches.2 lossBatches
              (gkpInitial size c) := by
          unfold gkpRunMulti gkpRun
          by_cases hp : batches.1 = 0
          · rw [dif_pos hp, dif_pos hp]
          · rw [dif_neg hp, dif_neg hp]
            simp only [hbody]
            cases forLoop size _ _ <;> rfl
        simp only [hrun]
        cases gkpRun solve _ _ reg unique _ _ _ <;> rfl
  refine ⟨?_, href⟩
  unfold gkpReduceMulti gkpReduce
  cases (initialCoresubset (-1) size n : Except Err (Data size ℤ K)) with
  | error e => rfl
  | ok c => exact href c.data

example := (C76_single (K := ℚ) scalarSolve (fun _ _ : Fin 2 => 1) id ![![1], ![-10]] 1 true none none 1 (fun _ t => (t : ℤ))
  (fun _ t => (t : ℤ)) none).1

/-- The loop raises as soon as its first body does. -/
theorem gkpRunMulti_cases {solve : RlsSolver K} (hs : NumericSolver solve) {size l p : ℕ}
    (padG : Fin (n + 1) → Fin (n + 1) → K) (padY : Fin (n + 1) → Fin (q + 1) → K) (reg : K) (unique : Bool) (hp : p ≠ 0)
    (hsz : 0 < size) (batches : Fin size → Fin p → ℤ) (lossBatches : Fin size → Fin l → ℤ) (init : Fin size → ℤ) :
    (broadcastDim l (q + 1) = none →
      gkpRunMulti solve padG padY reg unique batches lossBatches init = .error .typeError) ∧
    (broadcastDim l (q + 1) ≠ none →
      ∃ f, gkpRunMulti solve padG padY reg unique batches lossBatches init = .ok f) := by
  have hne : NeZero p := ⟨hp⟩
  constructor
  · intro h
    have hloop := forLoop_inv (P := fun i (s : Except Err (GkpState size p K)) =>
        (i = 0 → ∃ s', s = .ok s') ∧ (0 < i → s = .error .typeError)) size
      (gkpBodyMulti solve padG padY reg unique batches lossBatches) (.ok (gkpStart n batches init))
      ⟨fun _ => ⟨_, rfl⟩, fun h => absurd h (by omega)⟩
      (by
        intro i s hs'
        refine ⟨fun h => absurd h (by omega), fun _ => ?_⟩
        rcases s with e | s
        · rcases Nat.eq_zero_or_pos (i : ℕ) with h0 | h0
          · obtain ⟨s', h'⟩ := hs'.1 h0
            simp at h'
          · exact hs'.2 h0
        · obtain ⟨coef, -, h1, -⟩ := gkpLossMulti_eq hs padG padY reg (Function.update s.diag i 1) (lossBatches i) s.cand
          simp only [gkpBodyMulti, h1 h])
    unfold gkpRunMulti
    rw [dif_neg hp, hloop.2 hsz]
  · intro h
    obtain ⟨w, hw⟩ := Option.ne_none_iff_exists'.1 h
    have hloop := forLoop_inv (P := fun _ (s : Except Err (GkpState size p K)) => ∃ s', s = .ok s') size
      (gkpBodyMulti solve padG padY reg unique batches lossBatches) (.ok (gkpStart n batches init)) ⟨_, rfl⟩
      (by
        rintro i s ⟨s, rfl⟩
        obtain ⟨coef, -, -, h1⟩ := gkpLossMulti_eq hs padG padY reg (Function.update s.diag i 1) (lossBatches i) s.cand
        simp only [gkpBodyMulti, h1 w hw]
        exact ⟨_, rfl⟩)
    obtain ⟨s', hs'⟩ := hloop
    unfold gkpRunMulti
    rw [dif_neg hp, hs']
    exact ⟨_, rfl⟩

/-- Exactly when several responses are rejected: neither the width of the responses nor the size of the loss batch is one, and
the two differ.  In all other cases there is a result. -/
theorem C76_error_iff {solve : RlsSolver K} (hs : NumericSolver solve) (k : X → X → K) (x : Fin n → X)
    (y : Fin n → Fin (q + 1) → K) (reg : K) (unique : Bool) (cb lb : Option ℤ) (size : ℕ) (hsz : 0 < size) (hn : 0 < n)
    (hc : ¬ ∃ v, cb = some v ∧ v < 0) (hl : ¬ ∃ v, lb = some v ∧ v < 0) (permC permL : Fin size → Fin n → ℤ)
    (state : Option (Fin (n + 1) → Fin (n + 1) → K)) {m0 : ℕ} (c0 : Fin m0 → ℤ) :
    (gkpRefineMulti solve k x y reg unique cb lb size permC permL c0 state = .error .typeError ↔
      q ≠ 0 ∧ resolveBatch n lb ≠ 1 ∧ resolveBatch n lb ≠ q + 1) ∧
    (¬ (q ≠ 0 ∧ resolveBatch n lb ≠ 1 ∧ resolveBatch n lb ≠ q + 1) →
      ∃ c G, gkpRefineMulti solve k x y reg unique cb lb size permC permL c0 state = .ok (c, G)) := by
  obtain ⟨hc1, hc2⟩ := resolveBatch_cases n cb
  obtain ⟨hl1, hl2⟩ := resolveBatch_cases n lb
  have h1 : ¬ resolveBatch n cb < 0 := fun h => hc (hc2.1 h)
  have h2 : ¬ resolveBatch n lb < 0 := fun h => hl (hl2.1 h)
  have hd : broadcastDim (resolveBatch n lb).toNat (q + 1) = none ↔
      q ≠ 0 ∧ resolveBatch n lb ≠ 1 ∧ resolveBatch n lb ≠ q + 1 := by
    rw [broadcastDim_none]; omega
  rw [← hd]
  have key : ∃ (p : ℕ) (_ : p ≠ 0) (batches : Fin size → Fin p → ℤ) (lossBatches : Fin size → Fin (resolveBatch n lb).toNat → ℤ),
      gkpRefineMulti solve k x y reg unique cb lb size permC permL c0 state =
      match gkpRunMulti solve (state.getD (padGram k x)) (padRows y) reg unique batches lossBatches (gkpInitial size c0) with
      | .error e => .error e
      | .ok f => .ok (⟨f, fun _ => 1⟩, state.getD (padGram k x)) := by
    unfold gkpRefineMulti gkpCandidates sampleBatchIndices
    simp only [not_lt.2 hc1, h1, not_lt.2 hl1, h2, dite_false, if_false]
    by_cases h3 : resolveBatch n cb < n
    · simp only [h3, if_true]
      exact ⟨_, Nat.succ_ne_zero _, _, _, rfl⟩
    · simp only [h3, if_false]
      exact ⟨_, by omega, _, _, rfl⟩
  obtain ⟨p, hp, batches, lossBatches, hk⟩ := key
  obtain ⟨r1, r2⟩ := gkpRunMulti_cases hs (state.getD (padGram k x)) (padRows y) reg unique hp hsz batches lossBatches
    (gkpInitial size c0)
  rw [hk]
  refine ⟨⟨fun h => ?_, fun h => by rw [r1 h]⟩, fun h => ?_⟩
  · by_contra hcon
    obtain ⟨f, hf⟩ := r2 hcon
    rw [hf] at h
    simp at h
  · obtain ⟨f, hf⟩ := r2 h
    rw [hf]
    exact ⟨_, _, rfl⟩

/-- Three rows with two responses and a loss batch of one: accepted. -/
example := (C76_error_iff (K := ℚ) (solve := fun {_ _} _ _ B _ => .ok (B.map Ext.fin)) (fun _ _ B _ => ⟨B, rfl⟩)
  (fun a b : ℚ => a * b) ![1, 2, 3] ![![1, 0], ![2, 1], ![0, 3]] 1 true none (some 1) 2 (by norm_num) (by norm_num) (by simp)
  (by rintro ⟨v, hv, h⟩; simp at hv; omega) (fun _ t => (t : ℤ)) (fun _ t => (t : ℤ)) none ![2, 0]).2 (by decide)

/-- With the default loss batch (all the data), `reduce` rejects several responses, whatever the data, unless there is one row
or as many rows as responses. -/
theorem C76_default {solve : RlsSolver K} (hs : NumericSolver solve) (k : X → X → K) (x : Fin n → X)
    (y : Fin n → Fin (q + 1) → K) (reg : K) (unique : Bool) (cb : Option ℤ) (hc : ¬ ∃ v, cb = some v ∧ v < 0) (size : ℕ)
    (hsz : 0 < size) (hsn : size ≤ n) (hq : q ≠ 0) (hn1 : n ≠ 1) (hnq : n ≠ q + 1) (permC permL : Fin size → Fin n → ℤ)
    (state : Option (Fin (n + 1) → Fin (n + 1) → K)) :
    gkpReduceMulti solve k x y reg unique cb none size permC permL state = .error .typeError := by
  unfold gkpReduceMulti initialCoresubset
  rw [if_neg (by omega)]
  exact (C76_error_iff hs k x y reg unique cb none size hsz (by omega) hc (by simp) permC permL state _).1.2
    ⟨hq, by simp only [resolveBatch]; omega, by simp only [resolveBatch]; omega⟩

example := C76_default (K := ℚ) (solve := fun {_ _} _ _ B _ => .ok (B.map Ext.fin)) (fun _ _ B _ => ⟨B, rfl⟩)
  (fun a b : ℚ => a * b) ![1, 2, 3] ![![1, 0], ![2, 1], ![0, 3]] 1 true none (by simp) 2 (by norm_num) (by norm_num) (by norm_num)
  (by norm_num) (by norm_num) (fun _ t => (t : ℤ)) (fun _ t => (t : ℤ)) none

end

/-! ### What is computed when the shapes happen to fit -/

section
variable {X : Type*} {n m q : ℕ}

/-- The prediction at row `r` of the model with coefficients `a` on the points `S`. -/
def Spec.ridgePredict (G : Fin n → Fin n → ℝ) (S : Fin m → Option (Fin n)) (a : Fin m → ℝ) (r : Fin n) : ℝ :=
  ∑ u, (S u).elim 0 (fun s => G s r * a u)

/-- As many rows in the loss batch as there are responses: the `j`-th response is predicted at the `j`-th row of the batch only,
and compared there with the *first* response. -/
theorem C76_mixed {solve : RlsSolver ℝ} (hs : ExactSolver solve) {k : X → X → ℝ} (hk : IsPSD k) (x : Fin n → X)
    (y : Fin n → Fin (q + 1) → ℝ) {reg : ℝ} (hreg : reg ≠ 0) {p : ℕ} (S : Fin p → Fin m → Option (Fin n)) (diag : Fin m → ℝ)
    (hdiag : ∀ b t, diag t = if (S b t).isSome then 1 else 0) (batch : Fin (q + 1) → Fin n) :
    ∃ a : Fin p → Fin (q + 1) → Fin m → ℝ,
      (∀ b j, IsRidgeFit (fun i i' => k (x i) (x i')) (fun i => y i j) |reg| (S b) (a b j)) ∧
      gkpLossMulti solve (padGram k x) (padRows y) reg diag (fun j => (batch j : ℤ)) (fun b t => optIdx (S b t)) =
        .ok fun b => fin (∑ j, (ridgePredict (fun i i' => k (x i) (x i')) (S b) (a b j) (batch j) - y (batch j) 0) ^ 2 -
          ∑ j, y (batch j) 0 ^ 2) := by
  obtain ⟨coef, h1, -, h2⟩ := gkpLossMulti_eq hs.numeric (padGram k x) (padRows y) reg diag (fun j => (batch j : ℤ))
    (fun b t => optIdx (S b t))
  refine ⟨fun b j t => coef b t j, fun b j => ?_, ?_⟩
  · obtain ⟨Z, hZ1, hZ2⟩ := hs (Matrix.of fun t u => padGram k x (gatherIdx (n + 1) (optIdx (S b t)))
      (gatherIdx (n + 1) (optIdx (S b u)))) |reg| (Matrix.of fun t j => padRows y (gatherIdx (n + 1) (optIdx (S b t))) j)
      (Matrix.diagonal diag)
    have hZ : Z = coef b := by
      have := (hZ1.symm.trans (h1 b))
      rw [Except.ok.injEq] at this
      ext t u
      have := congrFun (congrFun this t) u
      simpa using this
    subst hZ
    rw [abs_abs] at hZ2
    exact ridgeFit_columns hk x y hreg (S b) diag (hdiag b) hZ2 j
  · rw [h2 (q + 1) (by simp [broadcastDim])]
    congr 1
    funext b
    congr 1
    rw [← Finset.sum_sub_distrib]
    refine Finset.sum_congr rfl fun j _ => ?_
    simp only [broadcastGet_self]
    have e1 : ((batch j : Fin n) : ℤ) = optIdx (some (batch j)) := rfl
    rw [e1, padRows_opt]
    simp only [padGram_opt, Option.elim_some]
    have e2 : ∀ u, (S b u).elim 0 (fun a => k (x a) (x (batch j))) * coef b u j =
        (S b u).elim 0 (fun s => k (x s) (x (batch j)) * coef b u j) := fun u => by
      rcases S b u with _ | s <;> simp
    simp only [e2, ridgePredict]
    ring

/-- A loss batch of one row: every response is predicted there and compared with the first one. -/
theorem C76_one_row {solve : RlsSolver ℝ} (hs : ExactSolver solve) {k : X → X → ℝ} (hk : IsPSD k) (x : Fin n → X)
    (y : Fin n → Fin (q + 1) → ℝ) {reg : ℝ} (hreg : reg ≠ 0) {p : ℕ} (S : Fin p → Fin m → Option (Fin n)) (diag : Fin m → ℝ)
    (hdiag : ∀ b t, diag t = if (S b t).isSome then 1 else 0) (r : Fin n) :
    ∃ a : Fin p → Fin (q + 1) → Fin m → ℝ,
      (∀ b j, IsRidgeFit (fun i i' => k (x i) (x i')) (fun i => y i j) |reg| (S b) (a b j)) ∧
      gkpLossMulti solve (padGram k x) (padRows y) reg diag (fun _ : Fin 1 => (r : ℤ)) (fun b t => optIdx (S b t)) =
        .ok fun b => fin (∑ j, (ridgePredict (fun i i' => k (x i) (x i')) (S b) (a b j) r - y r 0) ^ 2 -
          ∑ _j : Fin (q + 1), y r 0 ^ 2) := by
  obtain ⟨coef, h1, -, h2⟩ := gkpLossMulti_eq hs.numeric (padGram k x) (padRows y) reg diag (fun _ : Fin 1 => (r : ℤ))
    (fun b t => optIdx (S b t))
  refine ⟨fun b j t => coef b t j, fun b j => ?_, ?_⟩
  · obtain ⟨Z, hZ1, hZ2⟩ := hs (Matrix.of fun t u => padGram k x (gatherIdx (n + 1) (optIdx (S b t)))
      (gatherIdx (n + 1) (optIdx (S b u)))) |reg| (Matrix.of fun t j => padRows y (gatherIdx (n + 1) (optIdx (S b t))) j)
      (Matrix.diagonal diag)
    have hZ : Z = coef b := by
      have := (hZ1.symm.trans (h1 b))
      rw [Except.ok.injEq] at this
      ext t u
      have := congrFun (congrFun this t) u
      simpa using this
    subst hZ
    rw [abs_abs] at hZ2
    exact ridgeFit_columns hk x y hreg (S b) diag (hdiag b) hZ2 j
  · rw [h2 (q + 1) (by
      unfold broadcastDim
      by_cases h : 1 = q + 1
      · rw [if_pos h, ← h]
      · rw [if_neg h, if_pos rfl])]
    congr 1
    funext b
    congr 1
    rw [← Finset.sum_sub_distrib]
    refine Finset.sum_congr rfl fun j _ => ?_
    simp only [broadcastGet_self, broadcastGet_one]
    have e1 : ((r : Fin n) : ℤ) = optIdx (some r) := rfl
    rw [e1, padRows_opt]
    simp only [padGram_opt, Option.elim_some]
    have e2 : ∀ u, (S b u).elim 0 (fun a => k (x a) (x r)) * coef b u j =
        (S b u).elim 0 (fun s => k (x s) (x r) * coef b u j) := fun u => by
      rcases S b u with _ | s <;> simp
    simp only [e2, ridgePredict]
    ring

/-- Candidates `{0}`, `{1}`, each with an empty second position, for three rows, two responses and the loss batch of rows 2, 0. -/
example : ∃ a : Fin 2 → Fin 2 → Fin 2 → ℝ,
    ∀ b j, IsRidgeFit (fun _ _ => 1) (fun i => (![![1, 0], ![2, 1], ![0, 3]] : Fin 3 → Fin 2 → ℝ) i j) |1|
      (![![some 0, none], ![some 1, none]] b : Fin 2 → Option (Fin 3)) (a b j) := by
  obtain ⟨lstsq, h⟩ := exists_lstsq
  obtain ⟨a, ha, -⟩ := C76_mixed (q := 1) (exactSolver_minNorm h) (isPSD_const zero_le_one) (fun t : Fin 3 => t)
    ![![1, 0], ![2, 1], ![0, 3]] one_ne_zero ![![some 0, none], ![some 1, none]] ![1, 0]
    (fun b t => by fin_cases b <;> fin_cases t <;> simp) ![2, 0]
  exact ⟨a, ha⟩

example := C76_one_row (q := 1) (exactSolver_minNorm exists_lstsq.choose_spec) (isPSD_const zero_le_one) (fun t : Fin 3 => t)
    ![![1, 0], ![2, 1], ![0, 3]] one_ne_zero ![![some 0, none], ![some 1, none]] ![1, 0]
    (fun b t => by fin_cases b <;> fin_cases t <;> simp) 2

end

/-- The point selected can be the worse one: two rows with the responses (0, 0) and (0, 4), a constant kernel and the default
batches.  The first row is selected, but the ridge regression on the second row has half the squared error over both responses. -/
theorem C76_wrong_choice :
    (gkpReduceMulti scalarSolve (fun _ _ => 1) (fun t : Fin 2 => t) ![![0, 0], ![0, 4]] 1 true none none 1 (fun _ t => (t : ℤ))
      (fun _ t => (t : ℤ)) none).toOption.map (fun r => r.1.data 0) = some 0 ∧
    ∀ a a' : Fin 2 → Fin 1 → ℚ,
      (∀ j, IsRidgeFit (fun _ _ => 1) (fun i => (![![0, 0], ![0, 4]] : Fin 2 → Fin 2 → ℚ) i j) 1 ![some 0] (a j)) →
      (∀ j, IsRidgeFit (fun _ _ => 1) (fun i => (![![0, 0], ![0, 4]] : Fin 2 → Fin 2 → ℚ) i j) 1 ![some 1] (a' j)) →
      2 * ∑ j, ridgeError (fun _ _ => 1) (fun i => (![![0, 0], ![0, 4]] : Fin 2 → Fin 2 → ℚ) i j) ![some 1] (a' j) id =
        ∑ j, ridgeError (fun _ _ => 1) (fun i => (![![0, 0], ![0, 4]] : Fin 2 → Fin 2 → ℚ) i j) ![some 0] (a j) id ∧
      0 < ∑ j, ridgeError (fun _ _ => 1) (fun i => (![![0, 0], ![0, 4]] : Fin 2 → Fin 2 → ℚ) i j) ![some 1] (a' j) id := by
  refine ⟨by decide +kernel, fun a a' h h' => ?_⟩
  have e : ∀ j, a j 0 = 0 := fun j => by
    have := h j 0 0 rfl
    fin_cases j <;> simp at this <;> simpa using this
  have e0 : a' 0 0 = 0 := by
    have := h' 0 0 1 rfl
    simp at this; simpa using this
  have e1 : a' 1 0 = 2 := by
    have := h' 1 0 1 rfl
    simp at this; linarith
  simp [ridgeError, Fin.sum_univ_two, e, e0, e1]
  norm_num

end Coreax
