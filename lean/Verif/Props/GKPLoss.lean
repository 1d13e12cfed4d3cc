import Verif.Lemmas.PSD
import Verif.Props.GKP

/-!
# C18: what greedy kernel points minimises
-/

set_option linter.unusedSectionVars false

namespace Coreax

open Matrix Spec Ext

variable {X : Type*} {n : ℕ}

/-- The ridge regression on selected points exists, and its error does not depend on the choice of coefficients. -/
theorem C18_error_defined {k : X → X → ℝ} (hk : IsPSD k) (x : Fin n → X) (y : Fin n → ℝ) {lam : ℝ} (hl : 0 < lam) {m l : ℕ}
    (S : Fin m → Option (Fin n)) (batch : Fin l → Fin n) :
    (∃ a, IsRidgeFit (fun i j => k (x i) (x j)) y lam S a) ∧
    ∀ a a', IsRidgeFit (fun i j => k (x i) (x j)) y lam S a → IsRidgeFit (fun i j => k (x i) (x j)) y lam S a' →
      ridgeError (fun i j => k (x i) (x j)) y S a batch = ridgeError (fun i j => k (x i) (x j)) y S a' batch := by
  refine ⟨?_, fun a a' h h' => ridgeError_unique hk x hl h h' batch⟩
  obtain ⟨lstsq, hls⟩ := exists_lstsq
  obtain ⟨a, ha, -⟩ := gkpLoss_ridge (solve := minNormSolve lstsq) (fun A reg B I => ⟨_, rfl, hls _ _⟩) hk x y (reg := lam) hl.ne'
    (p := 1) (fun _ => S) (fun t => if (S t).isSome then 1 else 0) (fun _ _ => rfl) batch
  rw [abs_of_pos hl] at ha
  exact ⟨a 0, ha 0⟩

example := C18_error_defined (X := ℝ) (isPSD_rankOne fun x : ℝ => x) ![1, 2, 3] ![1, 1, 0] (lam := 1) (by norm_num) ![some 2, none] ![0, 1, 2]

/-- The default solver meets `ExactSolver`. -/
theorem exactSolver_minNorm {lstsq : LinSolve ℝ} (h : LstsqContract lstsq) : ExactSolver (minNormSolve lstsq) :=
  fun _ _ _ _ => ⟨_, rfl, h _ _⟩

/-- A step in terms of the ridge regression errors of the candidate coresets. -/
theorem gkp_core {solve : RlsSolver ℝ} (hs : ExactSolver solve) {k : X → X → ℝ} (hk : IsPSD k) {x : Fin n → X} {y : Fin n → ℝ}
    {reg : ℝ} (hreg : reg ≠ 0) {unique : Bool} {size p l : ℕ} [NeZero p] {batches : Fin size → Fin p → ℤ}
    {lossBatches : Fin size → Fin l → ℤ} {S0 : Fin size → Option (Fin n)} {f : Fin size → ℤ} {F : Fin size → Fin n}
    (hf : ∀ t, f t = (F t : ℤ)) {cb : Fin size → Fin p → Fin n} (hcb : ∀ i b, batches i b = (cb i b : ℤ))
    {lb : Fin size → Fin l → Fin n} (hlb : ∀ i j, lossBatches i j = (lb i j : ℤ)) {i : Fin size}
    (hst : StepFact solve (padGram k x) (padVec y) reg unique batches lossBatches (fun t => optIdx (S0 t)) f i)
    (hex : ∃ b, Allowed unique (stepIdx f (fun t => optIdx (S0 t)) i) i (batches i b)) :
    Allowed unique (stepIdx f (fun t => optIdx (S0 t)) i) i (f i) ∧
    ∀ b, Allowed unique (stepIdx f (fun t => optIdx (S0 t)) i) i (batches i b) → ∀ a a',
      IsRidgeFit (fun i j => k (x i) (x j)) y |reg| (replaceAt F S0 i (F i)) a →
      IsRidgeFit (fun i j => k (x i) (x j)) y |reg| (replaceAt F S0 i (cb i b)) a' →
      ridgeError (fun i j => k (x i) (x j)) y (replaceAt F S0 i (F i)) a (lb i) ≤
        ridgeError (fun i j => k (x i) (x j)) y (replaceAt F S0 i (cb i b)) a' (lb i) := by
  obtain ⟨L, hL, hfi⟩ := hst
  have hcand : stepCand f (fun t => optIdx (S0 t)) batches i = fun b t => optIdx (replaceAt F S0 i (cb i b) t) := by
    funext b t
    unfold stepCand replaceAt
    by_cases h1 : t < i
    · simp only [h1, if_true]; exact hf t
    · by_cases h2 : t = i
      · subst h2
        simp only [h1, if_false, if_true]
        exact hcb t b
      · simp only [h1, h2, if_false]
  have hdiag : ∀ b t, (stepDiag n (fun t => optIdx (S0 t)) i : Fin size → ℝ) t =
      if (replaceAt F S0 i (cb i b) t).isSome then 1 else 0 := by
    intro b t
    unfold stepDiag replaceAt
    by_cases h1 : t < i
    · simp only [h1, h1.le, if_true, Option.isSome_some]
    · by_cases h2 : t = i
      · subst h2; simp
      · have h3 : ¬ t ≤ i := fun h => h2 (le_antisymm h (not_lt.1 h1))
        simp only [h1, h2, h3, if_false]
        have key : ∀ o : Option (Fin n), (((gatherIdx (n + 1) (optIdx o) : Fin (n + 1)) : ℕ) < n) ↔ o.isSome = true := by
          rintro (_ | s)
          · rw [gather_opt_none]; simp
          · rw [gather_opt_some]; simp
        simp only [key]
  have hlbi : lossBatches i = fun j => (lb i j : ℤ) := funext (hlb i)
  obtain ⟨a0, ha0, hloss⟩ := gkpLoss_ridge hs hk x y hreg (fun b => replaceAt F S0 i (cb i b))
    (stepDiag n (fun t => optIdx (S0 t)) i) hdiag (lb i)
  rw [hlbi, hcand, hloss, Except.ok.injEq] at hL
  subst hL
  obtain ⟨b0, hb0, hch⟩ := step_choice hfi
  obtain ⟨h1, h2⟩ := hch hex
  refine ⟨h1, fun b hb a a' ha ha' => ?_⟩
  have hF : F i = cb i b0 := by
    have := (hf i).symm.trans (hb0.trans (hcb i b0))
    exact Fin.ext (by exact_mod_cast this)
  have hlam : 0 < |reg| := abs_pos.2 hreg
  have h3 := (h2 b hb).1
  rw [hF] at ha ⊢
  rw [ridgeError_unique hk x hlam ha (ha0 b0), ridgeError_unique hk x hlam ha' (ha0 b)]
  linarith

theorem lossBatch_eq {size : ℕ} {lb : Option ℤ} {permL : Fin size → Fin n → ℤ} {e : Fin size → Fin n → Fin n}
    (he : ∀ i t, permL i t = (e i t : ℤ)) {lossBatches : Fin size → Fin (resolveBatch n lb).toNat → ℤ}
    (h : sampleBatchIndices (n : ℤ) (resolveBatch n lb) permL = .ok lossBatches) :
    ∃ hl : (resolveBatch n lb).toNat ≤ n, ∀ i t, lossBatches i t = (e i (Fin.castLE hl t) : ℤ) := by
  unfold sampleBatchIndices at h
  split_ifs at h with h1 h2
  rw [Except.ok.injEq] at h
  subst h
  exact ⟨by omega, fun i t => he i _⟩

/-- Reducing with all the data as candidates: at every step the selected point minimises, among all points (those not
selected yet if `unique`), the squared error on the loss batch of the kernel ridge regression on the points selected so far and
the new one. -/
theorem C18_optimal {solve : RlsSolver ℝ} (hs : ExactSolver solve) {k : X → X → ℝ} (hk : IsPSD k) {x : Fin n → X}
    {y : Fin n → ℝ} {reg : ℝ} (hreg : reg ≠ 0) {unique : Bool} {cb lb : Option ℤ} {size : ℕ}
    {permC permL : Fin size → Fin n → ℤ} (hC : PermContract permC) (hfull : ∀ b, cb = some b → (n : ℤ) ≤ b)
    {e : Fin size → Fin n → Fin n} (he : ∀ i t, permL i t = (e i t : ℤ)) {l : ℕ} (hl : l ≤ n)
    (hlb : resolveBatch n lb = l) {c : Data size ℤ ℝ} {G : Fin (n + 1) → Fin (n + 1) → ℝ}
    (h : gkpReduce solve k x y reg unique cb lb size permC permL none = .ok (c, G)) :
    ∃ F : Fin size → Fin n, (∀ t, c.data t = (F t : ℤ)) ∧ ∀ i,
      (unique = true → ∀ t < i, F t ≠ F i) ∧
      ∀ j, (unique = true → ∀ t < i, F t ≠ j) → ∀ a a',
        IsRidgeFit (fun i j => k (x i) (x j)) y |reg| (replaceAt F (fun _ => none) i (F i)) a →
        IsRidgeFit (fun i j => k (x i) (x j)) y |reg| (replaceAt F (fun _ => none) i j) a' →
        ridgeError (fun i j => k (x i) (x j)) y (replaceAt F (fun _ => none) i (F i)) a (fun t => e i (Fin.castLE hl t)) ≤
          ridgeError (fun i j => k (x i) (x j)) y (replaceAt F (fun _ => none) i j) a' (fun t => e i (Fin.castLE hl t)) := by
  unfold gkpReduce initialCoresubset at h
  by_cases hsz : size > n
  · simp [hsz] at h
  rw [if_neg hsz] at h
  simp only at h
  obtain ⟨p, hp, batches, lossBatches, h1, h2, h3, h4, h5⟩ := gkpRefine_run h
  have h3' : G = padGram k x := h3
  subst h3'
  obtain ⟨f1, f2, f3⟩ := gkpCandidates_facts hC h1
  have hres : resolveBatch n cb = n := by
    rcases cb with _ | v
    · rfl
    · have := hfull v rfl
      simp only [resolveBatch]
      split_ifs <;> omega
  obtain ⟨f4, f5⟩ := f3 hres
  have hinit : gkpInitial size (fun _ : Fin size => (-1 : ℤ)) = fun t => optIdx ((fun _ => none : Fin size → Option (Fin n)) t) := by
    funext t
    simp [gkpInitial, optIdx]
  rw [hinit] at h5
  choose cbI hcbI using fun i b => inRange_iff.1 (f4 i b)
  have hF : ∀ t, ∃ j : Fin n, c.data t = (j : ℤ) := fun t => by
    obtain ⟨b, hb, -⟩ := step_allowed hs.numeric (h5 t)
    exact ⟨cbI t b, hb.trans (hcbI t b)⟩
  choose F hF using hF
  obtain ⟨hle, hlbI⟩ := lossBatch_eq he h2
  obtain rfl : l = (resolveBatch n lb).toNat := by omega
  refine ⟨F, hF, fun i => ?_⟩
  have hallow : ∀ j : Fin n, Allowed unique (stepIdx c.data (fun t => optIdx ((fun _ => none : Fin size → Option (Fin n)) t)) i) i
      (j : ℤ) ↔ (unique = true → ∀ t < i, F t ≠ j) := by
    intro j
    unfold Allowed
    refine forall_congr' fun hu => ?_
    constructor
    · rintro ⟨-, h⟩ t ht he
      refine h t ht.ne ?_
      simp only [stepIdx, ht, if_true]
      rw [hF, he]
    · intro h
      refine ⟨by omega, fun t ht => ?_⟩
      by_cases hti : t < i
      · simp only [stepIdx, hti, if_true]
        rw [hF]
        exact fun he => h t hti (Fin.ext (by exact_mod_cast he))
      · simp only [stepIdx, hti, if_false, optIdx, Option.elim_none]
        omega
  obtain ⟨j0, hj0⟩ := exists_allowed (not_lt.1 hsz) (stepIdx c.data (fun t => optIdx ((fun _ => none : Fin size → Option (Fin n)) t)) i)
    i unique
  have hcore := gkp_core hs hk hreg hF hcbI hlbI (h5 i) (by
    obtain ⟨b, hb⟩ := f5 i j0
    exact ⟨b, by rw [hb]; exact hj0⟩)
  refine ⟨(hallow (F i)).1 (by rw [← hF]; exact hcore.1), fun j hj a a' ha ha' => ?_⟩
  obtain ⟨b, hb⟩ := f5 i j
  have hbj : cbI i b = j := by
    have := (hcbI i b).symm.trans hb
    exact Fin.ext (by exact_mod_cast this)
  have := hcore.2 b (by rw [hb]; exact (hallow j).2 hj) a a' ha (by rw [hbj]; exact ha')
  rw [hbj] at this
  exact this

/-- The error over all the data does not depend on the order. -/
theorem ridgeError_perm {m : ℕ} (G : Fin n → Fin n → ℝ) (y : Fin n → ℝ) (S : Fin m → Option (Fin n)) (a : Fin m → ℝ)
    {e : Fin n → Fin n} (he : Function.Bijective e) : ridgeError G y S a e = ridgeError G y S a id := by
  unfold ridgeError
  exact Function.Bijective.sum_comp he
    (fun j => (∑ u, (S u).elim 0 (fun s => G s j * a u) - y j) ^ 2)

/-- Refining a coreset (without repetitions if `unique`) never makes it worse: with the loss over all the data, every step
leaves the squared error of the kernel ridge regression on the coreset no larger, for any candidate batches. -/
theorem C18_descent {solve : RlsSolver ℝ} (hs : ExactSolver solve) {k : X → X → ℝ} (hk : IsPSD k) {x : Fin n → X}
    {y : Fin n → ℝ} {reg : ℝ} (hreg : reg ≠ 0) {unique : Bool} {cb lb : Option ℤ} {size : ℕ}
    {permC permL : Fin size → Fin n → ℤ} (hC : PermContract permC) (hL : PermContract permL)
    (hfull : ∀ b, lb = some b → (n : ℤ) ≤ b) {m0 : ℕ} (hm : size ≤ m0) (c0 : Fin m0 → Fin n)
    (hinj : unique = true → Function.Injective c0) {c : Data size ℤ ℝ} {G : Fin (n + 1) → Fin (n + 1) → ℝ}
    (h : gkpRefine solve k x y reg unique cb lb size permC permL (fun t => (c0 t : ℤ)) none = .ok (c, G)) :
    ∃ F : Fin size → Fin n, (∀ t, c.data t = (F t : ℤ)) ∧
      (∀ i, ∀ a a',
        IsRidgeFit (fun i j => k (x i) (x j)) y |reg| (fun t => some (if (t : ℕ) < i + 1 then F t else c0 (Fin.castLE hm t))) a →
        IsRidgeFit (fun i j => k (x i) (x j)) y |reg| (fun t => some (if (t : ℕ) < i then F t else c0 (Fin.castLE hm t))) a' →
        ridgeError (fun i j => k (x i) (x j)) y (fun t => some (if (t : ℕ) < i + 1 then F t else c0 (Fin.castLE hm t))) a id ≤
        ridgeError (fun i j => k (x i) (x j)) y (fun t => some (if (t : ℕ) < i then F t else c0 (Fin.castLE hm t))) a' id) ∧
      ∀ a a', IsRidgeFit (fun i j => k (x i) (x j)) y |reg| (fun t => some (F t)) a →
        IsRidgeFit (fun i j => k (x i) (x j)) y |reg| (fun t => some (c0 (Fin.castLE hm t))) a' →
        ridgeError (fun i j => k (x i) (x j)) y (fun t => some (F t)) a id ≤
          ridgeError (fun i j => k (x i) (x j)) y (fun t => some (c0 (Fin.castLE hm t))) a' id := by
  have hlam : 0 < |reg| := abs_pos.2 hreg
  have hrange := C18_range hs.numeric hC h (.inr ⟨hm, fun t => ⟨by omega, by have := (c0 t).2; omega⟩⟩)
  choose F hF using fun t => inRange_iff.1 (hrange t).2
  obtain ⟨p, hp, batches, lossBatches, h1, h2, h3, h4, h5⟩ := gkpRefine_run h
  have h3' : G = padGram k x := h3
  subst h3'
  obtain ⟨f1, f2, -⟩ := gkpCandidates_facts hC h1
  set S0 : Fin size → Option (Fin n) := fun t => some (c0 (Fin.castLE hm t)) with hS0
  have hinit : gkpInitial size (fun t => (c0 t : ℤ)) = fun t => optIdx (S0 t) := by
    funext t
    have ht : (t : ℕ) < m0 := by have := t.2; omega
    simp only [gkpInitial, ht, dite_true, hS0, optIdx, Option.elim_some]
    rfl
  rw [hinit] at h5 f1 f2
  have hb : ∀ i b, ∃ j : Fin n, batches i b = (j : ℤ) := fun i b => by
    rcases f1 i b with h | h
    · exact inRange_iff.1 h
    · exact ⟨c0 (Fin.castLE hm i), h⟩
  choose cbI hcbI using hb
  choose e hebij he using hL
  obtain ⟨hle, hlbI⟩ := lossBatch_eq he h2
  have hres : resolveBatch n lb = n := by
    rcases lb with _ | v
    · rfl
    · have := hfull v rfl
      simp only [resolveBatch]
      split_ifs <;> omega
  have hresN : (resolveBatch n lb).toNat = n := by omega
  -- errors over the loss batch are errors over everything
  have herr : ∀ (i : Fin size) (S : Fin size → Option (Fin n)) (a : Fin size → ℝ),
      ridgeError (fun i j => k (x i) (x j)) y S a (fun t => e i (Fin.castLE hle t)) =
        ridgeError (fun i j => k (x i) (x j)) y S a id := by
    intro i S a
    rw [← ridgeError_perm _ y S a (hebij i)]
    unfold ridgeError
    exact Function.Bijective.sum_comp (e := Fin.castLE hle) ⟨Fin.castLE_injective hle, fun j => ⟨⟨j, by rw [hresN]; exact j.2⟩, rfl⟩⟩
      (fun j => (∑ u, (S u).elim 0 (fun s => k (x s) (x (e i j)) * a u) - y (e i j)) ^ 2)
  -- the current point is allowed at each step
  have hcur : ∀ i : Fin size, Allowed unique (stepIdx c.data (fun t => optIdx (S0 t)) i) i (c0 (Fin.castLE hm i) : ℤ) := by
    have main : ∀ m : ℕ, ∀ i : Fin size, (i : ℕ) = m →
        Allowed unique (stepIdx c.data (fun t => optIdx (S0 t)) i) i (c0 (Fin.castLE hm i) : ℤ) := by
      intro m
      induction m using Nat.strong_induction_on with
      | _ m ih =>
        intro i hi hu
        refine ⟨by omega, fun t ht => ?_⟩
        by_cases hti : t < i
        · have h7 : Allowed unique (stepIdx c.data (fun t => optIdx (S0 t)) t) t (c.data t) := by
            obtain ⟨b, hb, h6⟩ := step_allowed hs.numeric (h5 t)
            refine h6 ?_
            obtain ⟨b', hb'⟩ := f2 t ⟨by simp [hS0, optIdx], by have := (c0 (Fin.castLE hm t)).2; simp [hS0, optIdx]⟩
            refine ⟨b', ?_⟩
            rw [hb']
            exact ih t (by rw [Fin.lt_def] at hti; omega) t rfl
          have h8 := (h7 hu).2 i hti.ne'
          simp only [stepIdx, hti.le, not_lt.2 hti.le, if_false, hS0, optIdx, Option.elim_some] at h8
          simp only [stepIdx, hti, if_true]
          exact h8.symm
        · simp only [stepIdx, hti, if_false, hS0, optIdx, Option.elim_some]
          intro heq
          have h9 : c0 (Fin.castLE hm t) = c0 (Fin.castLE hm i) := Fin.ext (by exact_mod_cast heq)
          exact ht (Fin.castLE_injective hm (hinj hu h9))
    exact fun i => main i i rfl
  have hstep : ∀ i : ℕ, ∀ a a',
        IsRidgeFit (fun i j => k (x i) (x j)) y |reg| (fun t : Fin size => some (if (t : ℕ) < i + 1 then F t else c0 (Fin.castLE hm t))) a →
        IsRidgeFit (fun i j => k (x i) (x j)) y |reg| (fun t : Fin size => some (if (t : ℕ) < i then F t else c0 (Fin.castLE hm t))) a' →
        ridgeError (fun i j => k (x i) (x j)) y (fun t : Fin size => some (if (t : ℕ) < i + 1 then F t else c0 (Fin.castLE hm t))) a id ≤
        ridgeError (fun i j => k (x i) (x j)) y (fun t : Fin size => some (if (t : ℕ) < i then F t else c0 (Fin.castLE hm t))) a' id := by
    intro i a a' ha ha'
    by_cases hi : i < size
    · have e1 : (fun t : Fin size => some (if (t : ℕ) < i + 1 then F t else c0 (Fin.castLE hm t))) =
          replaceAt F S0 ⟨i, hi⟩ (F ⟨i, hi⟩) := by
        funext t
        unfold replaceAt
        by_cases h1 : t < ⟨i, hi⟩
        · rw [if_pos h1, if_pos (by rw [Fin.lt_def] at h1; simp at h1; omega)]
        · by_cases h2 : t = ⟨i, hi⟩
          · subst h2; simp
          · rw [if_neg h1, if_neg h2, if_neg]
            rw [Fin.lt_def] at h1
            rw [Fin.ext_iff] at h2
            simp at h1 h2
            omega
      have e2 : (fun t : Fin size => some (if (t : ℕ) < i then F t else c0 (Fin.castLE hm t))) =
          replaceAt F S0 ⟨i, hi⟩ (c0 (Fin.castLE hm ⟨i, hi⟩)) := by
        funext t
        unfold replaceAt
        by_cases h1 : t < ⟨i, hi⟩
        · rw [if_pos h1, if_pos (by rw [Fin.lt_def] at h1; simpa using h1)]
        · have h1' : ¬ (t : ℕ) < i := by rw [Fin.lt_def] at h1; simpa using h1
          by_cases h2 : t = ⟨i, hi⟩
          · subst h2; simp
          · rw [if_neg h1, if_neg h2, if_neg h1']
      rw [e1] at ha ⊢
      rw [e2] at ha' ⊢
      obtain ⟨b, hb⟩ := f2 ⟨i, hi⟩ ⟨by simp [hS0, optIdx], by simp [hS0, optIdx]⟩
      have hbc : cbI ⟨i, hi⟩ b = c0 (Fin.castLE hm ⟨i, hi⟩) := by
        have := (hcbI ⟨i, hi⟩ b).symm.trans hb
        simp only [hS0, optIdx, Option.elim_some] at this
        exact Fin.ext (by exact_mod_cast this)
      have hal := hcur ⟨i, hi⟩
      have hal' : Allowed unique (stepIdx c.data (fun t => optIdx (S0 t)) ⟨i, hi⟩) ⟨i, hi⟩ (batches ⟨i, hi⟩ b) := by
        rw [hb]; exact hal
      have := (gkp_core hs hk hreg hF hcbI hlbI (h5 ⟨i, hi⟩) ⟨b, hal'⟩).2 b hal' a a' ha (by rw [hbc]; exact ha')
      rw [hbc, herr, herr] at this
      exact this
    · have e1 : (fun t : Fin size => some (if (t : ℕ) < i + 1 then F t else c0 (Fin.castLE hm t))) =
          (fun t : Fin size => some (if (t : ℕ) < i then F t else c0 (Fin.castLE hm t))) := by
        funext t
        rw [if_pos (by have := t.2; omega), if_pos (by have := t.2; omega)]
      rw [e1] at ha ⊢
      exact (ridgeError_unique hk x hlam ha ha' id).le
  refine ⟨F, hF, hstep, ?_⟩
  have hall : ∀ i : ℕ, ∀ a a',
        IsRidgeFit (fun i j => k (x i) (x j)) y |reg| (fun t : Fin size => some (if (t : ℕ) < i then F t else c0 (Fin.castLE hm t))) a →
        IsRidgeFit (fun i j => k (x i) (x j)) y |reg| (fun t : Fin size => some (c0 (Fin.castLE hm t))) a' →
        ridgeError (fun i j => k (x i) (x j)) y (fun t : Fin size => some (if (t : ℕ) < i then F t else c0 (Fin.castLE hm t))) a id ≤
        ridgeError (fun i j => k (x i) (x j)) y (fun t : Fin size => some (c0 (Fin.castLE hm t))) a' id := by
    intro i
    induction i with
    | zero =>
      intro a a' ha ha'
      simp only [not_lt_zero, if_false] at ha ⊢
      exact (ridgeError_unique hk x hlam ha ha' id).le
    | succ i ih =>
      intro a a' ha ha'
      obtain ⟨a1, ha1⟩ := (C18_error_defined hk x y hlam
        (fun t : Fin size => some (if (t : ℕ) < i then F t else c0 (Fin.castLE hm t))) (id : Fin n → Fin n)).1
      exact (hstep i a a1 ha ha1).trans (ih a1 a' ha1 ha')
  intro a a' ha ha'
  have e1 : (fun t : Fin size => some (F t)) =
      (fun t : Fin size => some (if (t : ℕ) < size then F t else c0 (Fin.castLE hm t))) := by
    funext t
    rw [if_pos t.2]
  rw [e1] at ha ⊢
  exact hall size a a' ha ha'

/-! ### Limits -/

/-- `unique=True` does not exclude repetitions when the candidate batches are small: with batches of one candidate, both drawn
as point 0, and *any* solver that returns numbers, the coreset is point 0 twice. -/
theorem C18_unique_fails {solve : RlsSolver ℚ} (hs : NumericSolver solve) (k : X → X → ℚ) (x : Fin 3 → X) (y : Fin 3 → ℚ)
    (reg : ℚ) : ∃ c G, gkpReduce solve k x y reg true (some 1) none 2 (fun _ t => (t : ℤ)) (fun _ t => (t : ℤ)) none = .ok (c, G) ∧
      c.data 0 = 0 ∧ c.data 1 = 0 := by
  have hcand : gkpCandidates 3 (some 1) (fun (_ : Fin 2) t => ((t : Fin 3) : ℤ)) (fun _ => (-1 : ℤ)) =
      .ok ⟨2, fun _ => Fin.snoc (fun _ : Fin 1 => (0 : ℤ)) (-1)⟩ := by
    simp only [gkpCandidates, sampleBatchIndices, resolveBatch]
    norm_num
    funext i
    congr 1
  have hinit : gkpInitial 2 (fun _ : Fin 2 => (-1 : ℤ)) = fun _ => -1 := by
    funext t; simp [gkpInitial]
  have hb : ∀ b : Fin 2, (Fin.snoc (fun _ : Fin 1 => (0 : ℤ)) (-1) : Fin 2 → ℤ) b = if b = 0 then 0 else -1 := by decide
  have hz : argminNan (fun _ : Fin 2 => (pinf : Ext ℚ)) = ((0 : Fin 2) : ℤ) := by decide +kernel
  have h01 : (0 : Fin 2) ≠ 1 := by decide
  obtain ⟨⟨f, w⟩, G, hr⟩ := gkpRefine_ok hs k x y reg true (some 1) none 2 (fun _ t => (t : ℤ)) (fun _ t => (t : ℤ)) none
    (fun _ : Fin 2 => (-1 : ℤ)) (by decide) (by rintro ⟨v, hv, h⟩; simp at hv; omega) (by simp)
  have hred : gkpReduce solve k x y reg true (some 1) none 2 (fun _ t => (t : ℤ)) (fun _ t => (t : ℤ)) none = .ok (⟨f, w⟩, G) := by
    unfold gkpReduce initialCoresubset
    simp only [gt_iff_lt, Nat.reduceLT, if_false]
    exact hr
  refine ⟨_, _, hred, ?_⟩
  obtain ⟨p, hp, batches, lossBatches, h1, h2, h3, h4, h5⟩ := gkpRefine_run hr
  rw [hinit, hcand, Except.ok.injEq] at h1
  obtain rfl : 2 = p := congrArg Sigma.fst h1
  have h1 := eq_of_heq (Sigma.mk.inj h1).2
  subst h1
  rw [hinit] at h5
  have h0 : f 0 = 0 := by
    obtain ⟨b, hb0, h6⟩ := step_allowed hs (h5 0)
    have h7 := h6 ⟨0, fun _ => ⟨by rw [hb]; simp, fun t ht => by rw [hb]; simp [stepIdx]⟩⟩
    have h8 := (h7 rfl).1
    rw [hb0, hb b] at h8
    change f 0 = _ at hb0
    rw [hb0, hb b]
    by_cases hbb : b = 0
    · simp [hbb]
    · simp [hbb] at h8
  refine ⟨h0, ?_⟩
  obtain ⟨L, hL, hf1⟩ := h5 1
  obtain ⟨coef, -, hc⟩ := gkpLoss_eq hs G (padVec y) reg (stepDiag 3 (fun _ => -1) 1) (lossBatches 1)
    (stepCand f (fun _ => -1) (fun _ : Fin 2 => (Fin.snoc (fun _ : Fin 1 => (0 : ℤ)) (-1) : Fin 2 → ℤ)) 1)
  rw [hc, Except.ok.injEq] at hL
  subst hL
  have hmask : ∀ v : Fin 2 → ℚ, gkpMasked true (1 : Fin 2) (stepIdx f (fun _ => -1) 1)
      (stepCand f (fun _ => -1) (fun _ : Fin 2 => (Fin.snoc (fun _ : Fin 1 => (0 : ℤ)) (-1) : Fin 2 → ℤ)) 1)
      (fun b => fin (v b)) = fun _ => pinf := by
    intro v
    funext b
    unfold gkpMasked
    simp only [if_true]
    rw [if_pos]
    · rfl
    · by_cases hbb : b = 0
      · subst hbb
        exact ⟨0, by rw [Function.update_of_ne h01]; simp [stepIdx, stepCand, h0, hb]⟩
      · exact ⟨1, by rw [Function.update_self]; simp [stepCand, hb b, hbb]⟩
  rw [hmask, hz, gatherIdx_coe] at hf1
  exact hf1.trans ((hb 0).trans (by simp))

example := C18_unique_fails (solve := fun {_ _} _ _ B _ => .ok (B.map Ext.fin)) (fun _ _ B _ => ⟨B, rfl⟩) (fun a b : ℚ => a * b) ![1, 2, 3] ![1, 1, 1] 1

/-- A solver that is exact for systems of size one. -/
def scalarSolve : RlsSolver ℚ := fun A reg B I => .ok fun t j => fin (B t j / (A t t + |reg| * I t t))

/-- Without `unique`, the padding index -1 can be selected when the candidate batch is smaller than the data: "no point" may have
a smaller loss than the candidates. -/
theorem C18_padding_selected :
    (gkpReduce scalarSolve (fun _ _ => 1) (fun t : Fin 2 => t) ![1, -10] 1 false (some 1) none 1 (fun _ t => (t : ℤ))
      (fun _ t => (t : ℤ)) none).toOption.map (fun r => r.1.data 0) = some (-1) := by
  decide +kernel

/-- A batch size of zero is accepted; the only candidate is then the padding index, which is selected even with `unique`. -/
theorem C18_zero_batch :
    (gkpReduce scalarSolve (fun _ _ => 1) (fun t : Fin 2 => t) ![1, -10] 1 true (some 0) none 1 (fun _ t => (t : ℤ))
      (fun _ t => (t : ℤ)) none).toOption.map (fun r => r.1.data 0) = some (-1) := by
  decide +kernel

/-- A solver that returns NaN defeats `unique` even with all the data as candidates. -/
theorem C18_nan_repeats :
    (gkpReduce (fun _ _ _ _ => .ok fun _ _ => nan) (fun _ _ => 1) (fun t : Fin 2 => t) (![1, -10] : Fin 2 → ℚ) 1 true none none 2
      (fun _ t => (t : ℤ)) (fun _ t => (t : ℤ)) none).toOption.map (fun r => (r.1.data 0, r.1.data 1)) = some (0, 0) := by
  decide +kernel

/-! ### The hypotheses can be met -/

/-- Reducing three points to two with a constant kernel, `lambda = 1`, the default solver and everything as candidates: the
run succeeds and each choice is optimal. -/
example : ∃ (lstsq : LinSolve ℝ) (c : Data 2 ℤ ℝ) (G : Fin 4 → Fin 4 → ℝ) (F : Fin 2 → Fin 3),
    gkpReduce (minNormSolve lstsq) (fun _ _ => 1) (fun t : Fin 3 => t) ![1, 2, 5] 1 true none none 2 (fun _ t => (t : ℤ))
      (fun _ t => (t : ℤ)) none = .ok (c, G) ∧ (∀ t, c.data t = (F t : ℤ)) ∧ F 0 ≠ F 1 := by
  obtain ⟨lstsq, h⟩ := exists_lstsq
  have hk : IsPSD (fun _ _ : Fin 3 => (1 : ℝ)) := ⟨fun _ _ => rfl, fun m _ c => by
    have : ∑ i, ∑ j, c i * c j * 1 = (∑ i, c i) * ∑ j, c j := by
      rw [Finset.sum_mul_sum]; simp
    rw [this]
    exact mul_self_nonneg _⟩
  have hp : PermContract (fun (_ : Fin 2) (t : Fin 3) => (t : ℤ)) := fun _ => ⟨id, Function.bijective_id, fun _ => rfl⟩
  obtain ⟨c, G, hr⟩ := gkpRefine_ok (ExactSolver.numeric (exactSolver_minNorm h)) (fun _ _ => (1 : ℝ)) (fun t : Fin 3 => t) ![1, 2, 5] 1 true none
    none 2 (fun _ t => (t : ℤ)) (fun _ t => (t : ℤ)) none (fun _ : Fin 2 => (-1 : ℤ)) (by decide) (by simp) (by simp)
  have hred : gkpReduce (minNormSolve lstsq) (fun _ _ => 1) (fun t : Fin 3 => t) ![1, 2, 5] 1 true none none 2 (fun _ t => (t : ℤ))
      (fun _ t => (t : ℤ)) none = .ok (c, G) := by
    unfold gkpReduce initialCoresubset
    simp only [gt_iff_lt, Nat.reduceLT, if_false]
    exact hr
  obtain ⟨F, hF, hopt⟩ := C18_optimal (exactSolver_minNorm h) hk one_ne_zero hp (fun b hb => by simp at hb)
    (e := fun _ t => t) (fun _ _ => rfl) (l := 3) le_rfl rfl hred
  exact ⟨lstsq, c, G, F, hred, hF, (hopt 1).1 rfl 0 (by decide)⟩

/-- Refining the coreset made of points 2 and 0 of the same data: the error does not increase. -/
example : ∃ (lstsq : LinSolve ℝ) (c : Data 2 ℤ ℝ) (G : Fin 4 → Fin 4 → ℝ) (F : Fin 2 → Fin 3),
    gkpRefine (minNormSolve lstsq) (fun _ _ => 1) (fun t : Fin 3 => t) ![1, 2, 5] 1 true (some 1) none 2 (fun _ t => (t : ℤ))
      (fun _ t => (t : ℤ)) (fun t => ((![2, 0] : Fin 2 → Fin 3) t : ℤ)) none = .ok (c, G) ∧ (∀ t, c.data t = (F t : ℤ)) := by
  obtain ⟨lstsq, h⟩ := exists_lstsq
  have hk : IsPSD (fun _ _ : Fin 3 => (1 : ℝ)) := ⟨fun _ _ => rfl, fun m _ c => by
    have : ∑ i, ∑ j, c i * c j * 1 = (∑ i, c i) * ∑ j, c j := by
      rw [Finset.sum_mul_sum]; simp
    rw [this]
    exact mul_self_nonneg _⟩
  have hp : PermContract (fun (_ : Fin 2) (t : Fin 3) => (t : ℤ)) := fun _ => ⟨id, Function.bijective_id, fun _ => rfl⟩
  obtain ⟨c, G, hr⟩ := gkpRefine_ok (ExactSolver.numeric (exactSolver_minNorm h)) (fun _ _ => (1 : ℝ)) (fun t : Fin 3 => t) ![1, 2, 5] 1 true (some 1)
    none 2 (fun _ t => (t : ℤ)) (fun _ t => (t : ℤ)) none (fun t => ((![2, 0] : Fin 2 → Fin 3) t : ℤ)) (by decide)
    (by rintro ⟨v, hv, h⟩; simp at hv; omega) (by simp)
  obtain ⟨F, hF, -, -⟩ := C18_descent (exactSolver_minNorm h) hk one_ne_zero hp hp (fun b hb => by simp at hb) le_rfl
    ![2, 0] (fun _ => by decide) hr
  exact ⟨lstsq, c, G, F, hr, hF⟩

end Coreax
