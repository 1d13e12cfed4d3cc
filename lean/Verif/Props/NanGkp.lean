import Verif.Model.ExtGkp
import Verif.Props.NanSolvers
import Verif.Props.GKP

/-!
# C110: values that are not numbers in greedy kernel points
-/

set_option linter.unusedSectionVars false

namespace Coreax

open Ext Matrix

section
variable {X K : Type*} [Field K] [LinearOrder K] [IsStrictOrderedRing K] {n : ℕ}

namespace Spec

/-- The solver accepts all arrays. -/
def AlwaysSolves (solve : RlsSolverX K) : Prop :=
  ∀ {n q : ℕ} (A : Matrix (Fin n) (Fin n) (Ext K)) (reg : K) (B : Matrix (Fin n) (Fin q) (Ext K)) (I : Matrix (Fin n) (Fin n) K),
    ∃ Z, solve A reg B I = .ok Z

/-- A row whose features make the kernel NaN, or whose response is NaN. -/
def BadPair (k : X → X → Ext K) (x : Fin n → X) (y : Fin n → Ext K) (j : Fin n) : Prop :=
  (∀ i, k (x i) (x j) = nan ∧ k (x j) (x i) = nan) ∨ y j = nan

/-- All other rows give numbers. -/
def GoodPairs (k : X → X → Ext K) (x : Fin n → X) (y : Fin n → Ext K) (j : Fin n) : Prop :=
  (∀ a b, a ≠ j → b ≠ j → ∃ v, k (x a) (x b) = fin v) ∧ ∀ a, a ≠ j → ∃ v, y a = fin v

/-- Linear algebra on floats (trusted): one NaN in the array or the target makes all coefficients NaN, numbers give numbers. -/
def FloatSolver (solve : RlsSolverX K) : Prop :=
  (∀ {n : ℕ} (A : Matrix (Fin n) (Fin n) (Ext K)) (reg : K) (B : Matrix (Fin n) (Fin 1) (Ext K)) (I : Matrix (Fin n) (Fin n) K) Z, solve A reg B I = .ok Z →
    (∃ a b, A a b = nan) ∨ (∃ a, B a 0 = nan) → ∀ a, Z a 0 = nan) ∧
  ∀ {n : ℕ} (A : Matrix (Fin n) (Fin n) (Ext K)) (reg : K) (B : Matrix (Fin n) (Fin 1) (Ext K)) (I : Matrix (Fin n) (Fin n) K) Z, solve A reg B I = .ok Z →
    (∀ a b, ∃ v, A a b = fin v) → (∀ a, ∃ v, B a 0 = fin v) → ∀ a, ∃ v, Z a 0 = fin v

end Spec

open Spec

namespace NanGkp

theorem argminNan_zero {p : ℕ} [NeZero p] {f : Fin p → Ext K} (h : f 0 = nan) : argminNan f = 0 := by
  obtain ⟨q, rfl⟩ : ∃ q, p = q + 1 := ⟨p - 1, by have := NeZero.pos p; omega⟩
  have h0 : (0 : Fin (q + 1)) = @OfNat.ofNat (Fin (q + 1)) 0 _ := rfl
  unfold argminNan
  rw [List.finRange_succ, List.find?_cons_of_pos (by
    have : f (0 : Fin (q + 1)) = nan := h
    rw [this]; rfl)]
  rfl

/-- The first NaN. -/
theorem argminNan_first {p : ℕ} {f : Fin p → Ext K} {b : Fin p} (h : f b = nan) (h' : ∀ a, a ≠ b → f a ≠ nan) : argminNan f = (b : ℤ) := by
  have hf : (List.finRange p).find? (fun b => (f b).isNan) = some b := by
    rcases hc : (List.finRange p).find? (fun b => (f b).isNan) with _ | c
    · have := List.find?_eq_none.1 hc b (List.mem_finRange b)
      rw [h] at this
      exact absurd rfl this
    · have hcn := List.find?_some hc
      by_contra hne
      have hcb : c ≠ b := fun e => hne (by rw [e])
      refine h' c hcb ?_
      revert hcn
      cases f c <;> simp [Ext.isNan]
  unfold argminNan
  rw [hf]

theorem row_coe (r : Fin n) : (gatherIdx (n + 1) ((r : ℕ) : ℤ) : Fin (n + 1)) = r.castSucc := gatherIdx_coe (n := n + 1) r.castSucc

theorem padGramX_coe (k : X → X → Ext K) (x : Fin n → X) (a b : Fin n) : padGramX k x a.castSucc b.castSucc = k (x a) (x b) := by
  simp [padGramX]

theorem padVecX_coe (y : Fin n → Ext K) (a : Fin n) : padVecX y a.castSucc = y a := by simp [padVecX]

/-- A candidate has a NaN loss if it contains a row and the loss batch a bad pair. -/
theorem loss_nan {solve : RlsSolverX K} {k : X → X → Ext K} {x : Fin n → X} {y : Fin n → Ext K} {j0 : Fin n} (hbad : BadPair k x y j0) {reg : K} {size p l : ℕ}
    {diag : Fin size → K} {lossBatch : Fin l → ℤ} {u : Fin l} (hu : lossBatch u = (j0 : ℤ)) {cand : Fin p → Fin size → ℤ} {L : Fin p → Ext K}
    (h : gkpLossX solve (padGramX k x) (padVecX y) reg diag lossBatch cand = .ok L) (b : Fin p) (t : Fin size) (r : Fin n) (hr : cand b t = (r : ℤ)) : L b = nan := by
  simp only [gkpLossX] at h
  split at h
  · cases h
  · rename_i coef hcoef
    rw [Except.ok.injEq] at h
    subst h
    refine Ext.sum_nan (i := u) ?_
    rcases hbad with hk | hy
    · rw [Ext.sum_nan (i := t), nan_sub, nan_mul]
      rw [hu, hr, row_coe, row_coe, padGramX_coe, (hk r).1, nan_mul]
    · rw [hu, row_coe, padVecX_coe, hy, mul_nan, sub_nan, nan_mul]

theorem masked_nan {size p : ℕ} (unique : Bool) (i : Fin size) (idx : Fin size → ℤ) (cand : Fin p → Fin size → ℤ) (loss : Fin p → Ext K) {b : Fin p}
    (h : loss b = nan) : gkpMasked unique i idx cand loss b = nan := by
  unfold gkpMasked
  cases unique
  · exact h
  · simp only [if_true, h, nan_add]

theorem lossX_ok {solve : RlsSolverX K} (hs : AlwaysSolves solve) {size p l : ℕ} (padG : Fin (n + 1) → Fin (n + 1) → Ext K) (padY : Fin (n + 1) → Ext K) (reg : K)
    (diag : Fin size → K) (lossBatch : Fin l → ℤ) (cand : Fin p → Fin size → ℤ) : ∃ L, gkpLossX solve padG padY reg diag lossBatch cand = .ok L := by
  choose coef hcoef using fun b => hs (Matrix.of fun t u => padG (gatherIdx (n + 1) (cand b t)) (gatherIdx (n + 1) (cand b u)))
    |reg| (Matrix.of fun t (_ : Fin 1) => padY (gatherIdx (n + 1) (cand b t))) (Matrix.diagonal diag)
  have := (collect_ok_iff _ _).2 hcoef
  simp only [gkpLossX, this]
  exact ⟨_, rfl⟩

/-- If from step `i0` on the first candidate always has a NaN loss, the coreset consists from there on of the first candidates. -/
theorem loop_first {solve : RlsSolverX K} (hs : AlwaysSolves solve) {size p l : ℕ} [NeZero p] {padG : Fin (n + 1) → Fin (n + 1) → Ext K} {padY : Fin (n + 1) → Ext K}
    {reg : K} {unique : Bool} {batches : Fin size → Fin p → ℤ} {lossBatches : Fin size → Fin l → ℤ} {init : Fin size → ℤ} (target : Fin size → ℤ)
    (hstep : ∀ (i : Fin size) (idx : Fin size → ℤ) (diag : Fin size → K) (cand : Fin p → Fin size → ℤ) L, (∀ t, t < i → idx t = target t) → (∀ t, i ≤ t → idx t = init t) →
      (∀ b t, cand b t = if t < i then target t else if t = i then batches t b else init t) →
      gkpLossX solve padG padY reg diag (lossBatches i) cand = .ok L → batches i (gatherIdx p (argminNan (gkpMasked unique i idx cand L))) = target i) :
    ∃ s, forLoop size (gkpBodyX solve padG padY reg unique batches lossBatches) (.ok (gkpStart n batches init)) = .ok s ∧ s.idx = target := by
  have h := forLoop_inv (P := fun i (s : Except Err (GkpState size p K)) => ∃ s', s = .ok s' ∧ (∀ t : Fin size, (t : ℕ) < i → s'.idx t = target t) ∧
      (∀ t : Fin size, i ≤ (t : ℕ) → s'.idx t = init t) ∧
      ∀ b (t : Fin size), s'.cand b t = if (t : ℕ) < i then target t else if (t : ℕ) = i then batches t b else init t)
    size (gkpBodyX solve padG padY reg unique batches lossBatches) (.ok (gkpStart n batches init))
    ⟨_, rfl, fun t ht => absurd ht (by omega), fun t _ => rfl, fun b t => by simp [gkpStart]⟩ (by
      rintro i s ⟨s, rfl, h1, h2, h3⟩
      obtain ⟨L, hL⟩ := lossX_ok hs padG padY reg (Function.update s.diag i 1) (lossBatches i) s.cand
      have hc := hstep i s.idx _ s.cand L (fun t ht => h1 t ht) (fun t ht => h2 t ht) (fun b t => by
        rw [h3]; simp only [Fin.lt_def, Fin.ext_iff]) hL
      have hci : ∀ b, s.cand b i = batches i b := fun b => by rw [h3]; simp
      have hb : gkpBodyX solve padG padY reg unique batches lossBatches i (.ok s) = .ok ⟨(gkpUpdate unique batches i s.idx s.cand L).2, Function.update s.diag i 1,
          (gkpUpdate unique batches i s.idx s.cand L).1⟩ := by simp only [gkpBodyX, hL]
      refine ⟨_, hb, fun t ht => ?_, fun t ht => ?_, fun b t => ?_⟩
      · simp only [gkpUpdate, hci, hc]
        by_cases hti : t = i
        · subst hti; rw [Function.update_self]
        · have : (t : ℕ) ≠ i := fun h => hti (Fin.ext h)
          rw [Function.update_of_ne hti, h1 t (by omega)]
      · simp only [gkpUpdate, hci, hc]
        rw [Function.update_of_ne (fun h => by subst h; omega), h2 t (by omega)]
      · simp only [gkpUpdate, hci, hc]
        by_cases hti : t = i
        · subst hti; simp
        · have htv : (t : ℕ) ≠ i := fun h => hti (Fin.ext h)
          rw [if_neg hti]
          by_cases htl : (t : ℕ) < i
          · rw [if_neg (by omega), h3, if_pos htl, if_pos (by omega)]
          · by_cases htj : (t : ℕ) = i + 1
            · rw [if_pos htj, if_neg (by omega), if_pos htj]
            · rw [if_neg htj, h3, if_neg htl, if_neg htv, if_neg (by omega), if_neg htj])
  obtain ⟨s, hs', h1, -⟩ := h
  exact ⟨s, hs', funext fun t => h1 t t.2⟩

/-- The candidate batches begin with the entries of the permutations. -/
theorem candidates {size : ℕ} [NeZero n] (cb : Option ℤ) (hcb : ∀ v, cb = some v → 0 < v) (perm : Fin size → Fin n → ℤ) (init : Fin size → ℤ) :
    ∃ (p : ℕ) (_ : NeZero p) (batches : Fin size → Fin p → ℤ), gkpCandidates n cb perm init = .ok ⟨p, batches⟩ ∧
      (∀ i, batches i 0 = perm i 0) ∧ (∀ (b : Fin n), (b : ℤ) < resolveBatch n cb → ∃ b' : Fin p, (b' : ℕ) = b ∧ ∀ i, batches i b' = perm i b) ∧
      (∀ i (b' : Fin p), (∃ b : Fin n, (b : ℕ) = b' ∧ batches i b' = perm i b) ∨ batches i b' = init i) := by
  have hn := NeZero.pos n
  have h1 : 0 < resolveBatch n cb ∧ resolveBatch n cb ≤ n := by
    rcases cb with _ | v
    · simp only [resolveBatch]; omega
    · have := hcb v rfl
      simp only [resolveBatch]
      split_ifs <;> omega
  have hs : sampleBatchIndices (n : ℤ) (resolveBatch n cb) perm = .ok fun i t => perm i ⟨t, by have := t.2; omega⟩ := by
    unfold sampleBatchIndices
    rw [dif_neg (by omega), if_neg (by omega)]
  unfold gkpCandidates
  rw [hs]
  simp only
  split_ifs with hlt
  · refine ⟨_, ⟨by omega⟩, _, rfl, fun i => ?_, fun b hb => ⟨Fin.castSucc ⟨b, by omega⟩, rfl, fun i => by rw [Fin.snoc_castSucc]⟩, fun i b' => ?_⟩
    · obtain ⟨q, hq⟩ : ∃ q, (resolveBatch n cb).toNat = q + 1 := ⟨(resolveBatch n cb).toNat - 1, by omega⟩
      have h0 : (0 : Fin ((resolveBatch n cb).toNat + 1)) = Fin.castSucc ⟨0, by omega⟩ := rfl
      rw [h0, Fin.snoc_castSucc]
      rfl
    · refine Fin.lastCases ?_ (fun b => ?_) b'
      · exact .inr (by rw [Fin.snoc_last])
      · exact .inl ⟨⟨b, by have := b.2; omega⟩, rfl, by rw [Fin.snoc_castSucc]⟩
  · refine ⟨_, ⟨by omega⟩, _, rfl, fun i => rfl, fun b hb => ⟨⟨b, by omega⟩, rfl, fun i => rfl⟩, fun i b' => .inl ⟨⟨b', by have := b'.2; omega⟩, rfl, rfl⟩⟩

theorem losses {size : ℕ} (lb : Option ℤ) (h0 : 0 ≤ resolveBatch n lb) (perm : Fin size → Fin n → ℤ) :
    ∃ (l : ℕ) (batches : Fin size → Fin l → ℤ) (h : l ≤ n), (l : ℤ) = resolveBatch n lb ∧
      (match sampleBatchIndices (n : ℤ) (resolveBatch n lb) perm with
        | .error _ => False
        | .ok b => (⟨_, b⟩ : (l : ℕ) × (Fin size → Fin l → ℤ)) = ⟨l, batches⟩) ∧ ∀ i t, batches i t = perm i (Fin.castLE h t) := by
  have h1 : resolveBatch n lb ≤ n := by
    rcases lb with _ | v
    · simp only [resolveBatch]; omega
    · simp only [resolveBatch]
      split_ifs <;> omega
  refine ⟨(resolveBatch n lb).toNat, fun i t => perm i ⟨t, by have := t.2; omega⟩, by omega, by omega, ?_, fun i t => rfl⟩
  have hs : sampleBatchIndices (n : ℤ) (resolveBatch n lb) perm = .ok fun i t => perm i ⟨t, by have := t.2; omega⟩ := by
    unfold sampleBatchIndices
    rw [dif_neg (by omega), if_neg (by omega)]
  rw [hs]

/-- The run after the batches are drawn. -/
theorem refine_of_run {solve : RlsSolverX K} {k : X → X → Ext K} {x : Fin n → X} {y : Fin n → Ext K} {reg : K} {unique : Bool} {cb lb : Option ℤ} {size : ℕ}
    {permC permL : Fin size → Fin n → ℤ} {m0 : ℕ} {c : Fin m0 → ℤ} {p : ℕ} [NeZero p] {batches : Fin size → Fin p → ℤ}
    (hc : gkpCandidates n cb permC (gkpInitial size c) = .ok ⟨p, batches⟩) (h0 : 0 ≤ resolveBatch n lb) (target : Fin size → ℤ)
    (h : ∀ (l : ℕ) (lossBatches : Fin size → Fin l → ℤ) (hle : l ≤ n), (l : ℤ) = resolveBatch n lb → (∀ i t, lossBatches i t = permL i (Fin.castLE hle t)) →
      ∃ s, forLoop size (gkpBodyX solve (padGramX k x) (padVecX y) reg unique batches lossBatches) (.ok (gkpStart n batches (gkpInitial size c))) = .ok s ∧ s.idx = target) :
    gkpRefineX solve k x y reg unique cb lb size permC permL c = .ok ⟨target, fun _ => 1⟩ := by
  obtain ⟨l, lossBatches, hle, hl, hm, hv⟩ := losses lb h0 permL
  unfold gkpRefineX
  rw [hc]
  simp only
  revert hm
  cases hs : sampleBatchIndices (n : ℤ) (resolveBatch n lb) permL with
  | error e => exact fun h => h.elim
  | ok b =>
    intro hm
    obtain ⟨rfl, hb⟩ := Sigma.mk.inj_iff.1 hm
    rw [heq_eq_eq] at hb
    subst hb
    obtain ⟨s, h1, h2⟩ := h _ b hle hl hv
    have hp : p ≠ 0 := NeZero.ne p
    simp only [gkpRunX, dif_neg hp, h1, h2]

end NanGkp

open NanGkp

variable [NeZero n]

/-- C110, `refine`: if a bad pair (NaN features or NaN response) is in every loss batch, the result is the first candidate of every batch: the kernel, the data, the solver,
the regularisation, the coreset to be refined and even `unique` do not matter. -/
theorem C110_refine {solve : RlsSolverX K} (hs : AlwaysSolves solve) (k : X → X → Ext K) (x : Fin n → X) (y : Fin n → Ext K) (j0 : Fin n) (hbad : BadPair k x y j0)
    (reg : K) (unique : Bool) (cb lb : Option ℤ) (hcb : ∀ v, cb = some v → 0 < v) (size : ℕ) (permC permL : Fin size → Fin n → ℤ) (hC : PermContract permC)
    (hL : ∀ i, ∃ t : Fin n, ((t : ℕ) : ℤ) < resolveBatch n lb ∧ permL i t = (j0 : ℤ)) {m0 : ℕ} (c : Fin m0 → ℤ) (hsize : 0 < size) :
    gkpRefineX solve k x y reg unique cb lb size permC permL c = .ok ⟨fun i => permC i 0, fun _ => 1⟩ := by
  obtain ⟨p, hp, batches, h1, h2, -⟩ := candidates cb hcb permC (gkpInitial size c)
  have h0 : 0 ≤ resolveBatch n lb := by
    obtain ⟨t, ht, -⟩ := hL ⟨0, hsize⟩
    omega
  refine refine_of_run h1 h0 _ fun l lossBatches hle hl hv => ?_
  refine loop_first hs (fun i => permC i 0) fun i idx diag cand L _ _ hcand hLoss => ?_
  obtain ⟨t, ht, hj⟩ := hL i
  obtain ⟨e, -, he⟩ := hC i
  have hn := loss_nan hbad (u := ⟨t, by omega⟩) (by rw [hv]; exact hj) hLoss 0 i (e 0) (by rw [hcand]; simp [h2, he])
  rw [argminNan_zero (masked_nan unique i idx cand L hn)]
  have : (gatherIdx p 0 : Fin p) = 0 := gatherIdx_coe (n := p) 0
  rw [this, h2]

/-- C110, `reduce`: by default (all rows judge) one bad pair suffices. -/
theorem C110_reduce {solve : RlsSolverX K} (hs : AlwaysSolves solve) (k : X → X → Ext K) (x : Fin n → X) (y : Fin n → Ext K) (j0 : Fin n) (hbad : BadPair k x y j0)
    (reg : K) (unique : Bool) (cb : Option ℤ) (hcb : ∀ v, cb = some v → 0 < v) (size : ℕ) (hsize : 0 < size) (hle : size ≤ n) (permC permL : Fin size → Fin n → ℤ)
    (hC : PermContract permC) (hL : PermContract permL) :
    gkpReduceX solve k x y reg unique cb none size permC permL = .ok ⟨fun i => permC i 0, fun _ => 1⟩ := by
  unfold gkpReduceX
  have : (initialCoresubset (-1) size n : Except Err (Data size ℤ K)) = .ok ⟨fun _ => -1, fun _ => 0⟩ := by
    unfold initialCoresubset
    rw [if_neg (by omega)]
  rw [this]
  refine C110_refine hs k x y j0 hbad reg unique cb none hcb size permC permL hC (fun i => ?_) _ hsize
  obtain ⟨e, he, hv⟩ := hL i
  obtain ⟨t, ht⟩ := he.2 j0
  exact ⟨t, by simp only [resolveBatch]; have := t.2; omega, by rw [hv, ht]⟩

namespace NanGkp

theorem card_perm (a : Fin n) : (Finset.univ.filter fun σ : Equiv.Perm (Fin n) => σ 0 = a).card * n = Fintype.card (Equiv.Perm (Fin n)) := by
  have h : ∀ b, (Finset.univ.filter fun σ : Equiv.Perm (Fin n) => σ 0 = b).card = (Finset.univ.filter fun σ : Equiv.Perm (Fin n) => σ 0 = a).card := by
    intro b
    refine Finset.card_bij' (fun σ _ => Equiv.swap a b * σ) (fun σ _ => Equiv.swap a b * σ) ?_ ?_ ?_ ?_
    · intro σ hσ
      simp only [Finset.mem_filter, Finset.mem_univ, true_and] at hσ ⊢
      simp [hσ]
    · intro σ hσ
      simp only [Finset.mem_filter, Finset.mem_univ, true_and] at hσ ⊢
      simp [hσ]
    · intro σ _
      rw [← mul_assoc, Equiv.swap_mul_self, one_mul]
    · intro σ _
      rw [← mul_assoc, Equiv.swap_mul_self, one_mul]
  have h2 := Finset.card_eq_sum_card_fiberwise (s := (Finset.univ : Finset (Equiv.Perm (Fin n)))) (t := (Finset.univ : Finset (Fin n))) (f := fun σ => σ 0)
    (fun _ _ => Finset.mem_coe.2 (Finset.mem_univ _))
  rw [Finset.sum_congr rfl fun b _ => h b, Finset.sum_const, Finset.card_univ, Finset.card_univ, Fintype.card_fin, smul_eq_mul] at h2
  rw [h2, mul_comm]

end NanGkp

open Classical in
/-- C110, the law: over all choices of the candidate permutations every sequence of rows, with repetitions or without, is equally frequent: random sampling with replacement,
`unique=True` included. -/
theorem C110_uniform {solve : RlsSolverX K} (hs : AlwaysSolves solve) (k : X → X → Ext K) (x : Fin n → X) (y : Fin n → Ext K) (j0 : Fin n) (hbad : BadPair k x y j0)
    (reg : K) (unique : Bool) (cb : Option ℤ) (hcb : ∀ v, cb = some v → 0 < v) (size : ℕ) (hsize : 0 < size) (hle : size ≤ n) (permL : Fin size → Fin n → ℤ)
    (hL : PermContract permL) (g : Fin size → Fin n) :
    (Finset.univ.filter fun σ : Fin size → Equiv.Perm (Fin n) =>
      gkpReduceX solve k x y reg unique cb none size (fun i t => ((σ i t : ℕ) : ℤ)) permL = .ok ⟨fun i => ((g i : ℕ) : ℤ), fun _ => 1⟩).card * n ^ size
      = Fintype.card (Fin size → Equiv.Perm (Fin n)) := by
  have h : (Finset.univ.filter fun σ : Fin size → Equiv.Perm (Fin n) =>
      gkpReduceX solve k x y reg unique cb none size (fun i t => ((σ i t : ℕ) : ℤ)) permL = .ok ⟨fun i => ((g i : ℕ) : ℤ), fun _ => 1⟩)
      = Fintype.piFinset fun i => Finset.univ.filter fun σ : Equiv.Perm (Fin n) => σ 0 = g i := by
    ext σ
    rw [Finset.mem_filter, Fintype.mem_piFinset, C110_reduce hs k x y j0 hbad reg unique cb hcb size hsize hle _ permL
      (fun i => ⟨σ i, (σ i).bijective, fun _ => rfl⟩) hL]
    simp only [Finset.mem_univ, true_and, Finset.mem_filter, Except.ok.injEq, Data.mk.injEq, and_true]
    constructor
    · intro h i
      have := congrFun h i
      exact Fin.ext (by exact_mod_cast this)
    · intro h
      funext i
      rw [h i]
  rw [h, Fintype.card_piFinset, Fintype.card_pi, show n ^ size = ∏ _i : Fin size, n by simp, ← Finset.prod_mul_distrib]
  exact Finset.prod_congr rfl fun i _ => by convert NanGkp.card_perm (g i)

namespace NanGkp

theorem sum_isFin {m : ℕ} {f : Fin m → Ext K} (h : ∀ t, ∃ v, f t = fin v) : ∃ v, Ext.sum f = fin v := by
  choose g hg using h
  exact ⟨_, by rw [funext hg, sum_fin]⟩

theorem good_gram {k : X → X → Ext K} {x : Fin n → X} {y : Fin n → Ext K} {j0 : Fin n} (h : GoodPairs k x y j0) (u v : Fin (n + 1)) (hu : u ≠ j0.castSucc)
    (hv : v ≠ j0.castSucc) : ∃ w, padGramX k x u v = fin w := by
  revert hu hv
  refine Fin.lastCases ?_ (fun a => ?_) u
  · intro _ _
    exact ⟨0, by simp [padGramX]⟩
  · refine Fin.lastCases ?_ (fun b => ?_) v
    · intro _ _
      exact ⟨0, by simp [padGramX]⟩
    · intro ha hb
      rw [padGramX_coe]
      exact h.1 a b (fun e => ha (by rw [e])) (fun e => hb (by rw [e]))

theorem good_vec {k : X → X → Ext K} {x : Fin n → X} {y : Fin n → Ext K} {j0 : Fin n} (h : GoodPairs k x y j0) (u : Fin (n + 1)) (hu : u ≠ j0.castSucc) :
    ∃ w, padVecX y u = fin w := by
  revert hu
  refine Fin.lastCases ?_ (fun a => ?_) u
  · intro _
    exact ⟨0, by simp [padVecX]⟩
  · intro ha
    rw [padVecX_coe]
    exact h.2 a fun e => ha (by rw [e])

end NanGkp

/-- C110, a bad pair outside the first loss batch: it is then the first point chosen, because `argmin` prefers NaN, and after it come again the first candidates. -/
theorem C110_attracted {solve : RlsSolverX K} (hs : AlwaysSolves solve) (hf : FloatSolver solve) (k : X → X → Ext K) (x : Fin n → X) (y : Fin n → Ext K) (j0 : Fin n)
    (hbad : BadPair k x y j0) (hgood : GoodPairs k x y j0) (reg : K) (unique : Bool) (cb lb : Option ℤ) (hcb : ∀ v, cb = some v → 0 < v) (hlb : 0 < resolveBatch n lb)
    (size : ℕ) (hsize : 0 < size) (hle : size ≤ n) (permC permL : Fin size → Fin n → ℤ) (hC : PermContract permC) (hL : PermContract permL)
    (hin : ∃ b : Fin n, ((b : ℕ) : ℤ) < resolveBatch n cb ∧ permC ⟨0, hsize⟩ b = (j0 : ℤ))
    (hout : ∀ t : Fin n, ((t : ℕ) : ℤ) < resolveBatch n lb → permL ⟨0, hsize⟩ t ≠ (j0 : ℤ)) :
    gkpReduceX solve k x y reg unique cb lb size permC permL = .ok ⟨fun i => if (i : ℕ) = 0 then (j0 : ℤ) else permC i 0, fun _ => 1⟩ := by
  unfold gkpReduceX
  have hinit : (initialCoresubset (-1) size n : Except Err (Data size ℤ K)) = .ok ⟨fun _ => -1, fun _ => 0⟩ := by
    unfold initialCoresubset
    rw [if_neg (by omega)]
  rw [hinit]
  simp only
  obtain ⟨p, hp, batches, h1, h2, h3, h4⟩ := candidates cb hcb permC (gkpInitial size fun _ : Fin size => (-1 : ℤ))
  have hi : gkpInitial size (fun _ : Fin size => (-1 : ℤ)) = fun _ => -1 := by
    funext t
    unfold gkpInitial
    split_ifs <;> rfl
  refine refine_of_run h1 hlb.le _ fun l lossBatches hl hll hv => ?_
  refine loop_first hs _ fun i idx diag cand L hidx1 hidx2 hcand hLoss => ?_
  have hLoss' := hLoss
  simp only [gkpLossX] at hLoss
  split at hLoss
  · cases hLoss
  rename_i coef hcoef
  rw [Except.ok.injEq] at hLoss
  have hco := (collect_ok_iff _ _).1 hcoef
  -- a candidate containing the bad pair
  have hnan : ∀ b t, cand b t = (j0 : ℤ) → L b = nan := by
    intro b t hb
    have hZ := hf.1 _ _ _ _ _ (hco b) (by
      rcases hbad with hk | hy
      · exact .inl ⟨t, t, by simp only [Matrix.of_apply, hb, row_coe, padGramX_coe]; exact (hk j0).1⟩
      · exact .inr ⟨t, by simp only [Matrix.of_apply, hb, row_coe, padVecX_coe]; exact hy⟩)
    rw [← hLoss]
    refine Ext.sum_nan (i := ⟨0, by omega⟩) ?_
    rw [Ext.sum_nan (i := t), nan_sub, nan_mul]
    rw [hZ, mul_nan]
  by_cases hi0 : (i : ℕ) = 0
  · have hi' : i = ⟨0, hsize⟩ := Fin.ext hi0
    obtain ⟨b, hb1, hb2⟩ := hin
    obtain ⟨b', hb'⟩ := h3 b hb1
    have hbj : batches i b' = (j0 : ℤ) := by rw [hb'.2, hi', hb2]
    have hcand0 : ∀ a t, cand a t = if t = i then batches t a else -1 := by
      intro a t
      rw [hcand, if_neg (by rw [Fin.lt_def, hi0]; omega), hi]
    have hn : L b' = nan := hnan b' i (by rw [hcand0, if_pos rfl, hbj])
    have hfirst : argminNan (gkpMasked unique i idx cand L) = (b' : ℤ) := by
      refine argminNan_first (masked_nan unique i idx cand L hn) fun a ha => ?_
      have hrow : ∀ t, (gatherIdx (n + 1) (cand a t) : Fin (n + 1)) ≠ j0.castSucc := by
        have hlast : (gatherIdx (n + 1) (-1) : Fin (n + 1)) ≠ j0.castSucc := by
          intro h
          have := congrArg Fin.val h
          have hj := j0.2
          simp only [gatherIdx, Fin.val_castSucc] at this
          omega
        intro t
        rw [hcand0]
        by_cases hti : t = i
        · rw [if_pos hti, hti]
          rcases h4 i a with ⟨b2, hb3, hb4⟩ | h
          · obtain ⟨e, he1, he2⟩ := hC i
            rw [hb4, he2, row_coe]
            intro h
            have h5 : e b2 = j0 := Fin.castSucc_injective _ h
            have h6 : e b = j0 := by
              have := he2 b
              rw [hi', hb2] at this
              exact (Fin.ext (by exact_mod_cast this)).symm
            have h7 : b2 = b := he1.1 (h5.trans h6.symm)
            exact ha (Fin.ext (by rw [← hb3, h7, hb'.1]))
          · rw [h, hi]
            exact hlast
        · rw [if_neg hti]
          exact hlast
      have hlossrow : ∀ u, (gatherIdx (n + 1) (lossBatches i u) : Fin (n + 1)) ≠ j0.castSucc := by
        intro u
        obtain ⟨e, -, he2⟩ := hL i
        rw [hv, he2, row_coe]
        intro h
        refine hout (Fin.castLE hl u) (by rw [← hll]; have := u.2; simp only [Fin.val_castLE]; omega) ?_
        rw [← hi', he2, Fin.castSucc_injective _ h]
      have hG := good_gram hgood
      have hY := good_vec hgood
      have hZ := hf.2 _ _ _ _ _ (hco a) (fun t u => hG _ _ (hrow t) (hrow u)) (fun t => hY _ (hrow t))
      have hfinL : ∃ v, L a = fin v := by
        rw [← hLoss]
        refine sum_isFin fun u => ?_
        obtain ⟨v, hpv⟩ := sum_isFin (fun t => by
          obtain ⟨v1, e1⟩ := hG _ _ (hrow t) (hlossrow u)
          obtain ⟨v2, e2⟩ := hZ t
          exact ⟨v1 * v2, by rw [e1, e2, fin_mul_fin]⟩ :
          ∀ t, ∃ v, padGramX k x (gatherIdx (n + 1) (cand a t)) (gatherIdx (n + 1) (lossBatches i u)) * coef a t 0 = fin v)
        obtain ⟨v3, e3⟩ := hY _ (hlossrow u)
        exact ⟨(v - 2 * v3) * v, by rw [hpv, e3, fin_mul_fin, fin_sub_fin, fin_mul_fin]⟩
      obtain ⟨v, hv'⟩ := hfinL
      unfold gkpMasked
      cases unique
      · simp [hv']
      · simp only [if_true, hv']
        split_ifs <;> simp [HAdd.hAdd, Add.add, Ext.add]
    rw [hfirst, gatherIdx_coe, hbj, if_pos hi0]
  · have hlt : (⟨0, hsize⟩ : Fin size) < i := Fin.lt_def.2 (Nat.pos_of_ne_zero hi0)
    have hn : L 0 = nan := hnan 0 ⟨0, hsize⟩ (by rw [hcand, if_pos hlt]; simp)
    rw [argminNan_zero (masked_nan unique i idx cand L hn)]
    have : (gatherIdx p 0 : Fin p) = 0 := gatherIdx_coe (n := p) 0
    rw [this, h2, if_neg hi0]

/-- The float solver on arrays of numbers is the given solver. -/
def Spec.AgreesOnNumbers (solveX : RlsSolverX K) (solve : RlsSolver K) : Prop :=
  ∀ {n q : ℕ} (A : Matrix (Fin n) (Fin n) K) (reg : K) (B : Matrix (Fin n) (Fin q) K) (I : Matrix (Fin n) (Fin n) K),
    solveX (A.map fin) reg (B.map fin) I = solve A reg B I

omit [NeZero n] in
/-- C110, on numbers: if kernel and responses are numbers, the run is that of the model without NaN. -/
theorem C110_numbers {solveX : RlsSolverX K} {solve : RlsSolver K} (h : Spec.AgreesOnNumbers solveX solve) (k : X → X → K) (x : Fin n → X) (y : Fin n → K) (reg : K)
    (unique : Bool) (cb lb : Option ℤ) (size : ℕ) (permC permL : Fin size → Fin n → ℤ) :
    gkpReduceX solveX (fun a b => fin (k a b)) x (fun i => fin (y i)) reg unique cb lb size permC permL
      = (gkpReduce solve k x y reg unique cb lb size permC permL none).map Prod.fst := by
  have hG : padGramX (fun a b => fin (k a b)) x = fun u v => fin (padGram k x u v) := by
    funext u v
    refine Fin.lastCases ?_ (fun a => ?_) u
    · simp [padGramX, padGram]
    · refine Fin.lastCases ?_ (fun b => ?_) v <;> simp [padGramX, padGram]
  have hY : padVecX (fun i => fin (y i)) = fun u => fin (padVec y u) := by
    funext u
    refine Fin.lastCases ?_ (fun a => ?_) u <;> simp [padVecX, padVec]
  have hL : ∀ {p l : ℕ} (diag : Fin size → K) (lossBatch : Fin l → ℤ) (cand : Fin p → Fin size → ℤ),
      gkpLossX solveX (fun u v => fin (padGram k x u v)) (fun u => fin (padVec y u)) reg diag lossBatch cand
        = gkpLoss solve (padGram k x) (padVec y) reg diag lossBatch cand := by
    intro p l diag lossBatch cand
    have h1 : (fun b : Fin p => solveX (Matrix.of fun t u => fin (padGram k x (gatherIdx (n + 1) (cand b t)) (gatherIdx (n + 1) (cand b u)))) |reg|
        (Matrix.of fun t (_ : Fin 1) => fin (padVec y (gatherIdx (n + 1) (cand b t)))) (Matrix.diagonal diag))
        = fun b => solve (Matrix.of fun t u => padGram k x (gatherIdx (n + 1) (cand b t)) (gatherIdx (n + 1) (cand b u))) |reg|
        (Matrix.of fun t (_ : Fin 1) => padVec y (gatherIdx (n + 1) (cand b t))) (Matrix.diagonal diag) := by
      funext b
      exact h (Matrix.of fun t u => padGram k x (gatherIdx (n + 1) (cand b t)) (gatherIdx (n + 1) (cand b u))) _
        (Matrix.of fun t (_ : Fin 1) => padVec y (gatherIdx (n + 1) (cand b t))) _
    simp only [gkpLossX, gkpLoss, solveStack, h1, fin_mul_fin]
    cases collect (fun b => solve (Matrix.of fun t u => padGram k x (gatherIdx (n + 1) (cand b t)) (gatherIdx (n + 1) (cand b u))) |reg|
        (Matrix.of fun t (_ : Fin 1) => padVec y (gatherIdx (n + 1) (cand b t))) (Matrix.diagonal diag)) <;> rfl
  have hB : ∀ {p l : ℕ} [NeZero p] (batches : Fin size → Fin p → ℤ) (lossBatches : Fin size → Fin l → ℤ),
      gkpBodyX solveX (fun u v => fin (padGram k x u v)) (fun u => fin (padVec y u)) reg unique batches lossBatches
        = gkpBody solve (padGram k x) (padVec y) reg unique batches lossBatches := by
    intro p l _ batches lossBatches
    funext i s
    cases s with
    | error e => rfl
    | ok s =>
      simp only [gkpBodyX, gkpBody, hL]
      cases gkpLoss solve (padGram k x) (padVec y) reg (Function.update s.diag i 1) (lossBatches i) s.cand <;> rfl
  have hR : ∀ {p l : ℕ} (batches : Fin size → Fin p → ℤ) (lossBatches : Fin size → Fin l → ℤ) (init : Fin size → ℤ),
      gkpRunX solveX (fun u v => fin (padGram k x u v)) (fun u => fin (padVec y u)) reg unique batches lossBatches init
        = gkpRun solve (padGram k x) (padVec y) reg unique batches lossBatches init := by
    intro p l batches lossBatches init
    unfold gkpRunX gkpRun
    split_ifs with hp
    · rfl
    · have : NeZero p := ⟨hp⟩
      rw [hB]
      cases forLoop size (gkpBody solve (padGram k x) (padVec y) reg unique batches lossBatches) (.ok (gkpStart n batches init)) <;> rfl
  unfold gkpReduceX gkpReduce
  cases (initialCoresubset (-1) size n : Except Err (Data size ℤ K)) with
  | error e => rfl
  | ok c =>
    simp only [gkpRefineX, gkpRefine, hG, hY]
    cases gkpCandidates n cb permC (gkpInitial size c.data) with
    | error e => rfl
    | ok b =>
      simp only
      cases sampleBatchIndices (n : ℤ) (resolveBatch n lb) permL with
      | error e => rfl
      | ok l =>
        simp only [hR, Option.getD_none]
        cases gkpRun solve (padGram k x) (padVec y) reg unique b.2 l (gkpInitial size c.data) <;> rfl

end

/-! ## Cases -/

namespace NanGkpExamples

open Spec NanGkp

open Classical in
/-- A solver: NaN if a NaN is given, otherwise the target (the "identity" as array). -/
noncomputable def solver : RlsSolverX ℚ := fun A _ B _ =>
  .ok (if (∃ a b, A a b = nan) ∨ (∃ a c, B a c = nan) then Matrix.of fun _ _ => nan else B)

theorem always : AlwaysSolves solver := fun _ _ _ _ => ⟨_, rfl⟩

theorem solver_bad {n q : ℕ} {A : Matrix (Fin n) (Fin n) (Ext ℚ)} {reg : ℚ} {B : Matrix (Fin n) (Fin q) (Ext ℚ)} {I : Matrix (Fin n) (Fin n) ℚ}
    (h : (∃ a b, A a b = nan) ∨ ∃ a c, B a c = nan) : solver A reg B I = .ok (Matrix.of fun _ _ => nan) := congrArg _ (if_pos h)

theorem solver_good {n q : ℕ} {A : Matrix (Fin n) (Fin n) (Ext ℚ)} {reg : ℚ} {B : Matrix (Fin n) (Fin q) (Ext ℚ)} {I : Matrix (Fin n) (Fin n) ℚ}
    (h : ¬((∃ a b, A a b = nan) ∨ ∃ a c, B a c = nan)) : solver A reg B I = .ok B := congrArg _ (if_neg h)

theorem float : FloatSolver solver := by
  refine ⟨fun A reg B I Z h hn a => ?_, fun A reg B I Z h hA hB a => ?_⟩
  · change solver A reg B I = .ok Z at h
    rw [solver_bad (hn.imp id fun ⟨a, h⟩ => ⟨a, 0, h⟩), Except.ok.injEq] at h
    rw [← h]
    rfl
  · change solver A reg B I = .ok Z at h
    rw [solver_good, Except.ok.injEq] at h
    · rw [← h]
      exact hB a
    · rintro (⟨a, b, h⟩ | ⟨a, c, h⟩)
      · obtain ⟨v, hv⟩ := hA a b
        rw [hv] at h
        cases h
      · obtain ⟨v, hv⟩ := hB a
        rw [Subsingleton.elim c 0, hv] at h
        cases h

theorem agrees : Spec.AgreesOnNumbers solver fun {_ _} _ _ B _ => .ok (B.map fin) := by
  intro n q A reg B I
  refine solver_good ?_
  rintro (⟨a, b, h⟩ | ⟨a, c, h⟩)
  · have h' : (fin (A a b) : Ext ℚ) = nan := h
    cases h'
  · have h' : (fin (B a c) : Ext ℚ) = nan := h
    cases h'

/-- Three rows; the response of the last one is NaN. -/
def resp : Fin 3 → Ext ℚ := ![fin 1, fin 2, nan]

def kern (a b : ℚ) : Ext ℚ := fin (a * b)

theorem bad : BadPair kern ![1, 2, 3] resp 2 := .inr rfl

theorem good : GoodPairs kern ![1, 2, 3] resp 2 := by
  refine ⟨fun a b _ _ => ⟨_, rfl⟩, fun a ha => ?_⟩
  fin_cases a
  · exact ⟨1, rfl⟩
  · exact ⟨2, rfl⟩
  · exact absurd rfl ha

/-- Both candidate permutations begin with row 1. -/
def perm : Fin 2 → Fin 3 → ℤ := fun _ => ![1, 2, 0]

theorem perm_contract : PermContract perm := fun _ => ⟨![1, 2, 0], by decide, fun t => by fin_cases t <;> rfl⟩

theorem id_contract : PermContract (fun (_ : Fin 2) (t : Fin 3) => (t : ℤ)) := fun _ => ⟨id, Function.bijective_id, fun _ => rfl⟩

/-- `unique=True`, and row 1 twice. -/
example : gkpReduceX solver kern ![1, 2, 3] resp 1 true none none 2 perm perm = .ok ⟨fun _ => 1, fun _ => 1⟩ := by
  rw [C110_reduce always kern _ resp 2 bad 1 true none (by simp) 2 (by norm_num) (by norm_num) perm perm perm_contract perm_contract]
  rfl

/-- Refining a coreset of two good rows loses it. -/
example : gkpRefineX solver kern ![1, 2, 3] resp 1 true (some 1) none 2 perm perm ![0, 1] = .ok ⟨fun _ => 1, fun _ => 1⟩ := by
  rw [C110_refine always kern _ resp 2 bad 1 true (some 1) none (by simp) 2 perm perm perm_contract (fun i => ⟨1, by simp [resolveBatch], rfl⟩) ![0, 1] (by norm_num)]
  rfl

example := C110_uniform always kern ![1, 2, 3] resp 2 bad 1 true none (by simp) 2 (by norm_num) (by norm_num) _ id_contract ![0, 0]

/-- Loss batches of two rows, the bad one outside: it is chosen first. -/
example : gkpReduceX solver kern ![1, 2, 3] resp 1 true none (some 2) 2 perm (fun _ t => (t : ℤ)) = .ok ⟨![2, 1], fun _ => 1⟩ := by
  rw [C110_attracted always float kern _ resp 2 bad good 1 true none (some 2) (by simp) (by simp [resolveBatch]) 2 (by norm_num) (by norm_num) perm _ perm_contract id_contract
    ⟨1, by simp [resolveBatch], rfl⟩ (fun t ht => by fin_cases t <;> simp_all [resolveBatch])]
  congr 2
  funext i
  fin_cases i <;> rfl

example := C110_numbers agrees (fun a b : ℚ => a * b) ![1, 2, 3] ![1, 2, 3] 1 true none (some 2) 2 perm perm

end NanGkpExamples

end Coreax
