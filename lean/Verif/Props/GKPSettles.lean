import Verif.Lemmas.Settle
import Verif.Props.GKPLoss

/-!
# C107: refining with greedy kernel points again and again

With all the data as candidates and in the loss (the defaults), repeated refinement comes to rest, and where it rests no
exchange of a single member lowers the training error.
-/

set_option linter.unusedSectionVars false

namespace Coreax

open Matrix Spec Ext

variable {X : Type*} {n : ℕ}

namespace Settle

/-- A sequence, each member of which is determined by its predecessor, comes to rest if every change lowers `E`, or leaves
`E` and lowers the ranks of the entries that change. -/
theorem settles_of {K : Type*} [LinearOrder K] {m : ℕ} (E : (Fin m → Fin n) → K) (r : Fin m → Fin n → ℕ)
    (g : ℕ → Fin m → Fin n) (hle : ∀ N, E (g (N + 1)) ≤ E (g N))
    (htie : ∀ N, E (g (N + 1)) = E (g N) → ∀ t, g (N + 1) t = g N t ∨ r t (g (N + 1) t) < r t (g N t))
    (hdet : ∀ M N, g M = g N → g (M + 1) = g (N + 1)) :
    ∃ N₀, N₀ < n ^ m ∧ ∀ N, N₀ ≤ N → g N = g N₀ := by
  have hE : ∀ M N, M ≤ N → E (g N) ≤ E (g M) := fun M N h => antitone_nat_of_succ_le (f := fun N => E (g N)) hle h
  obtain ⟨p, q, hpq, hgpq⟩ := Fintype.exists_ne_map_eq_of_card_lt (fun p : Fin (n ^ m + 1) => g p) (by simp)
  wlog hlt : p < q generalizing p q
  · exact this q p hpq.symm hgpq.symm (lt_of_le_of_ne (not_lt.1 hlt) hpq.symm)
  have hlt' : (p : ℕ) < q := hlt
  have hgpq' : g p = g q := hgpq
  have heq : ∀ N, (p : ℕ) ≤ N → N ≤ q → E (g N) = E (g p) := fun N h1 h2 =>
    le_antisymm (hE p N h1) ((le_of_eq (by rw [hgpq'])).trans (hE N q h2))
  have hdown : ∀ N, (p : ℕ) ≤ N → N < q → ∀ t, g (N + 1) t = g N t ∨ r t (g (N + 1) t) < r t (g N t) := fun N h1 h2 t =>
    htie N ((heq (N + 1) (by omega) h2).trans (heq N h1 h2.le).symm) t
  have hr : ∀ N, (p : ℕ) + 1 ≤ N → N ≤ q → ∀ t, r t (g N t) ≤ r t (g (p + 1) t) := by
    intro N h1
    induction N, h1 using Nat.le_induction with
    | base => intro _ t; exact le_rfl
    | succ N h ih =>
      intro h2 t
      refine le_trans ?_ (ih (by omega) t)
      rcases hdown N (by omega) (by omega) t with h | h
      · rw [h]
      · exact h.le
  have hfix : g (p + 1) = g p := by
    funext t
    rcases hdown p le_rfl hlt' t with h | h
    · exact h
    · have := hr q hlt' le_rfl t
      rw [← hgpq'] at this
      omega
  refine ⟨p, by have := q.2; omega, fun N hN => ?_⟩
  induction N, hN using Nat.le_induction with
  | base => rfl
  | succ N _ ih => rw [hdet N p ih, hfix]

end Settle

/-! ### Specification -/

/-- `E` is the squared training error of the kernel ridge regression on the coreset `c`. -/
def Spec.IsTrainingError (k : X → X → ℝ) (x : Fin n → X) (y : Fin n → ℝ) (lam : ℝ) {m : ℕ} (c : Fin m → Fin n) (E : ℝ) : Prop :=
  ∃ a, IsRidgeFit (fun i j => k (x i) (x j)) y lam (fun t => some (c t)) a ∧
    E = ridgeError (fun i j => k (x i) (x j)) y (fun t => some (c t)) a id

namespace GKPSettle

theorem isTrainingError_exists {k : X → X → ℝ} (hk : IsPSD k) (x : Fin n → X) (y : Fin n → ℝ) {lam : ℝ} (hl : 0 < lam) {m : ℕ}
    (c : Fin m → Fin n) : ∃ E, IsTrainingError k x y lam c E := by
  obtain ⟨a, ha⟩ := (C18_error_defined hk x y hl (fun t => some (c t)) (id : Fin n → Fin n)).1
  exact ⟨_, a, ha, rfl⟩

theorem isTrainingError_unique {k : X → X → ℝ} (hk : IsPSD k) (x : Fin n → X) (y : Fin n → ℝ) {lam : ℝ} (hl : 0 < lam) {m : ℕ}
    {c : Fin m → Fin n} {E E' : ℝ} (h : IsTrainingError k x y lam c E) (h' : IsTrainingError k x y lam c E') : E = E' := by
  obtain ⟨a, ha, rfl⟩ := h
  obtain ⟨a', ha', rfl⟩ := h'
  exact ridgeError_unique hk x hl ha ha' id

/-- A step in terms of the ridge regression errors of the candidate coresets, with ties. -/
theorem core {solve : RlsSolver ℝ} (hs : ExactSolver solve) {k : X → X → ℝ} (hk : IsPSD k) {x : Fin n → X} {y : Fin n → ℝ}
    {reg : ℝ} (hreg : reg ≠ 0) {unique : Bool} {size p l : ℕ} [NeZero p] {batches : Fin size → Fin p → ℤ}
    {lossBatches : Fin size → Fin l → ℤ} {S0 : Fin size → Option (Fin n)} {f : Fin size → ℤ} {F : Fin size → Fin n}
    (hf : ∀ t, f t = (F t : ℤ)) {cb : Fin size → Fin p → Fin n} (hcb : ∀ i b, batches i b = (cb i b : ℤ))
    {lb : Fin size → Fin l → Fin n} (hlb : ∀ i j, lossBatches i j = (lb i j : ℤ)) {i : Fin size}
    (hst : StepFact solve (padGram k x) (padVec y) reg unique batches lossBatches (fun t => optIdx (S0 t)) f i)
    (hex : ∃ b, Allowed unique (stepIdx f (fun t => optIdx (S0 t)) i) i (batches i b)) :
    ∃ b0, F i = cb i b0 ∧
    ∀ b, Allowed unique (stepIdx f (fun t => optIdx (S0 t)) i) i (batches i b) → ∀ a a',
      IsRidgeFit (fun i j => k (x i) (x j)) y |reg| (replaceAt F S0 i (F i)) a →
      IsRidgeFit (fun i j => k (x i) (x j)) y |reg| (replaceAt F S0 i (cb i b)) a' →
      ridgeError (fun i j => k (x i) (x j)) y (replaceAt F S0 i (F i)) a (lb i) ≤
        ridgeError (fun i j => k (x i) (x j)) y (replaceAt F S0 i (cb i b)) a' (lb i) ∧
      (b < b0 → ridgeError (fun i j => k (x i) (x j)) y (replaceAt F S0 i (F i)) a (lb i) <
        ridgeError (fun i j => k (x i) (x j)) y (replaceAt F S0 i (cb i b)) a' (lb i)) := by
  obtain ⟨L, hL, hfi⟩ := hst
  have hcand : stepCand f (fun t => optIdx (S0 t)) batches i = fun b t => optIdx (replaceAt F S0 i (cb i b) t) := by
    funext b t
    unfold stepCand replaceAt
    by_cases h1 : t < i
    · simp only [h1, if_true]; exact hf t
    · by_cases h2 : t = i
      · subst h2
        simp only [h1, if_false, if_true]
        exact hcb t b
      · simp only [h1, h2, if_false]
  have hdiag : ∀ b t, (stepDiag n (fun t => optIdx (S0 t)) i : Fin size → ℝ) t =
      if (replaceAt F S0 i (cb i b) t).isSome then 1 else 0 := by
    intro b t
    unfold stepDiag replaceAt
    by_cases h1 : t < i
    · simp only [h1, h1.le, if_true, Option.isSome_some]
    · by_cases h2 : t = i
      · subst h2; simp
      · have h3 : ¬ t ≤ i := fun h => h2 (le_antisymm h (not_lt.1 h1))
        simp only [h1, h2, h3, if_false]
        have key : ∀ o : Option (Fin n), (((gatherIdx (n + 1) (optIdx o) : Fin (n + 1)) : ℕ) < n) ↔ o.isSome = true := by
          rintro (_ | s)
          · rw [gather_opt_none]; simp
          · rw [gather_opt_some]; simp
        simp only [key]
  have hlbi : lossBatches i = fun j => (lb i j : ℤ) := funext (hlb i)
  obtain ⟨a0, ha0, hloss⟩ := gkpLoss_ridge hs hk x y hreg (fun b => replaceAt F S0 i (cb i b))
    (stepDiag n (fun t => optIdx (S0 t)) i) hdiag (lb i)
  rw [hlbi, hcand, hloss, Except.ok.injEq] at hL
  subst hL
  obtain ⟨b0, hb0, hch⟩ := step_choice hfi
  obtain ⟨-, h2⟩ := hch hex
  have hF : F i = cb i b0 := by
    have := (hf i).symm.trans (hb0.trans (hcb i b0))
    exact Fin.ext (by exact_mod_cast this)
  refine ⟨b0, hF, fun b hb a a' ha ha' => ?_⟩
  have hlam : 0 < |reg| := abs_pos.2 hreg
  obtain ⟨h3, h4⟩ := h2 b hb
  rw [hF] at ha ⊢
  rw [ridgeError_unique hk x hlam ha (ha0 b0), ridgeError_unique hk x hlam ha' (ha0 b)]
  exact ⟨by linarith, fun hlt => by have := h4 hlt; linarith⟩

/-- The candidates when all the data is searched. -/
theorem candidates_full {size p : ℕ} {cb : Option ℤ} (hfull : ∀ b, cb = some b → (n : ℤ) ≤ b) {perm : Fin size → Fin n → ℤ}
    {e : Fin size → Fin n → Fin n} (he : ∀ i t, perm i t = (e i t : ℤ)) {init : Fin size → ℤ} {batches : Fin size → Fin p → ℤ}
    (h : gkpCandidates n cb perm init = .ok ⟨p, batches⟩) :
    ∃ hp : p = n, ∀ i b, batches i b = (e i (Fin.cast hp b) : ℤ) := by
  have hres : resolveBatch n cb = n := by
    rcases cb with _ | v
    · rfl
    · have := hfull v rfl
      simp only [resolveBatch]
      split_ifs <;> omega
  unfold gkpCandidates at h
  unfold sampleBatchIndices at h
  by_cases h1 : (n : ℤ) < resolveBatch n cb
  · omega
  by_cases h2 : resolveBatch n cb < 0
  · omega
  have h3 : ¬ resolveBatch n cb < n := by omega
  simp only [h1, h2, h3, dite_false, if_false, Except.ok.injEq, Sigma.mk.injEq] at h
  obtain ⟨hp, hb⟩ := h
  have hpn : (resolveBatch n cb).toNat = n := by omega
  subst hp
  refine ⟨hpn, fun i b => ?_⟩
  rw [← eq_of_heq hb]
  exact he i _

/-- One pass over a full coreset, in terms of training errors. -/
theorem pass {solve : RlsSolver ℝ} (hs : ExactSolver solve) {k : X → X → ℝ} (hk : IsPSD k) {x : Fin n → X}
    {y : Fin n → ℝ} {reg : ℝ} (hreg : reg ≠ 0) {unique : Bool} {cb lb : Option ℤ} {size : ℕ}
    {permC permL : Fin size → Fin n → ℤ} {eC : Fin size → Fin n → Fin n} (hCb : ∀ i, Function.Bijective (eC i))
    (hCe : ∀ i t, permC i t = (eC i t : ℤ)) (hL : PermContract permL)
    (hcb : ∀ b, cb = some b → (n : ℤ) ≤ b) (hlb : ∀ b, lb = some b → (n : ℤ) ≤ b) (c0 : Fin size → Fin n)
    (hinj : unique = true → Function.Injective c0) {c : Data size ℤ ℝ} {G : Fin (n + 1) → Fin (n + 1) → ℝ}
    (h : gkpRefine solve k x y reg unique cb lb size permC permL (fun t => (c0 t : ℤ)) none = .ok (c, G))
    (E : (Fin size → Fin n) → ℝ) (hE : ∀ c, IsTrainingError k x y |reg| c (E c)) (r : Fin size → Fin n → ℕ)
    (hr : ∀ i b, r i (eC i b) = (b : ℕ)) :
    ∃ F : Fin size → Fin n, c = ⟨fun t => (F t : ℤ), fun _ => 1⟩ ∧ (unique = true → Function.Injective F) ∧
      (∀ i, E (Settle.hyb c0 F (i + 1)) ≤ E (Settle.hyb c0 F i) ∧
        (E (Settle.hyb c0 F (i + 1)) = E (Settle.hyb c0 F i) → ∀ hi : i < size,
          F ⟨i, hi⟩ = c0 ⟨i, hi⟩ ∨ r ⟨i, hi⟩ (F ⟨i, hi⟩) < r ⟨i, hi⟩ (c0 ⟨i, hi⟩))) ∧
      ∀ (i : Fin size) (j : Fin n), (unique = true → ∀ t, t ≠ i → Settle.hyb c0 F i t ≠ j) →
        E (Settle.hyb c0 F (i + 1)) ≤ E (Function.update (Settle.hyb c0 F i) i j) := by
  have hlam : 0 < |reg| := abs_pos.2 hreg
  have hC : PermContract permC := fun i => ⟨eC i, hCb i, hCe i⟩
  have hcr : ∀ t : Fin size, (0 : ℤ) ≤ (c0 t : ℤ) ∧ (c0 t : ℤ) < n := fun t => ⟨by omega, by have := (c0 t).2; omega⟩
  have hrange := C18_range hs.numeric hC h (.inr ⟨le_rfl, hcr⟩)
  choose F hF using fun t => inRange_iff.1 (hrange t).2
  have hFinj : unique = true → Function.Injective F := by
    intro hu
    subst hu
    have := C18_distinct hs.numeric hC h (.inr ⟨le_rfl, fun a b hab => hinj rfl (Fin.ext (by simpa using hab)), hcr⟩)
    intro a b hab
    exact this (by rw [hF, hF, hab])
  have hcF : c = ⟨fun t => (F t : ℤ), fun _ => 1⟩ := by
    obtain ⟨cd, cw⟩ := c
    congr 1
    · funext t; exact hF t
    · funext t; exact (hrange t).1
  obtain ⟨p, hp, batches, lossBatches, h1, h2, h3, h4, h5⟩ := gkpRefine_run h
  have h3' : G = padGram k x := h3
  subst h3'
  obtain ⟨hpn, hbat⟩ := candidates_full hcb hCe h1
  subst hpn
  set S0 : Fin size → Option (Fin p) := fun t => some (c0 t) with hS0
  have hinit : gkpInitial size (fun t => (c0 t : ℤ)) = fun t => optIdx (S0 t) := by
    funext t
    simp only [gkpInitial, t.2, dite_true, hS0, optIdx, Option.elim_some]
  rw [hinit] at h5
  choose e hebij he using hL
  obtain ⟨hle, hlbI⟩ := lossBatch_eq he h2
  have hres : resolveBatch p lb = p := by
    rcases lb with _ | v
    · rfl
    · have := hlb v rfl
      simp only [resolveBatch]
      split_ifs <;> omega
  have hresN : (resolveBatch p lb).toNat = p := by omega
  have herr : ∀ (i : Fin size) (S : Fin size → Option (Fin p)) (a : Fin size → ℝ),
      ridgeError (fun i j => k (x i) (x j)) y S a (fun t => e i (Fin.castLE hle t)) =
        ridgeError (fun i j => k (x i) (x j)) y S a id := by
    intro i S a
    rw [← ridgeError_perm _ y S a (hebij i)]
    unfold ridgeError
    exact Function.Bijective.sum_comp (e := Fin.castLE hle) ⟨Fin.castLE_injective hle, fun j => ⟨⟨j, by rw [hresN]; exact j.2⟩, rfl⟩⟩
      (fun j => (∑ u, (S u).elim 0 (fun s => k (x s) (x (e i j)) * a u) - y (e i j)) ^ 2)
  have hrep : ∀ (i : Fin size) (j : Fin p), replaceAt F S0 i j = fun t => some (Function.update (Settle.hyb c0 F i) i j t) := by
    intro i j
    funext t
    unfold replaceAt
    by_cases h1 : t < i
    · rw [if_pos h1, Function.update_of_ne h1.ne]
      have : (t : ℕ) < i := h1
      simp [Settle.hyb, this]
    · by_cases h2 : t = i
      · subst h2; simp
      · rw [if_neg h1, if_neg h2, Function.update_of_ne h2]
        have : ¬ (t : ℕ) < i := h1
        simp [Settle.hyb, this, hS0]
  have hallow : ∀ (i : Fin size) (j : Fin p), (unique = true → ∀ t, t ≠ i → Settle.hyb c0 F i t ≠ j) →
      Allowed unique (stepIdx c.data (fun t => optIdx (S0 t)) i) i (j : ℤ) := by
    intro i j hj hu
    refine ⟨by omega, fun t ht heq => hj hu t ht ?_⟩
    unfold stepIdx at heq
    unfold Settle.hyb
    by_cases hti : t < i
    · have : (t : ℕ) < i := hti
      rw [if_pos hti, hF] at heq
      rw [if_pos this]
      exact Fin.ext (by exact_mod_cast heq)
    · have : ¬ (t : ℕ) < i := hti
      rw [if_neg hti] at heq
      rw [if_neg this]
      simp only [hS0, optIdx, Option.elim_some] at heq
      exact Fin.ext (by exact_mod_cast heq)
  have hold : ∀ i : Fin size, unique = true → ∀ t, t ≠ i → Settle.hyb c0 F i t ≠ c0 i := by
    have main : ∀ m : ℕ, ∀ i : Fin size, (i : ℕ) = m → unique = true → ∀ t, t ≠ i → Settle.hyb c0 F i t ≠ c0 i := by
      intro m
      induction m using Nat.strong_induction_on with
      | _ m ih =>
        intro i hi hu t ht
        unfold Settle.hyb
        by_cases hti : (t : ℕ) < i
        · rw [if_pos hti]
          -- at step `t` the point `c0 i` was a member at another position
          have h7 : Allowed unique (stepIdx c.data (fun t => optIdx (S0 t)) t) t (c.data t) := by
            obtain ⟨b, hb, h6⟩ := step_allowed hs.numeric (h5 t)
            refine h6 ?_
            obtain ⟨b', hb'⟩ := (hCb t).2 (c0 t)
            refine ⟨b', ?_⟩
            rw [hbat, show Fin.cast rfl b' = b' from rfl, hb']
            exact hallow t _ (ih t (by omega) t rfl)
          have h8 := (h7 hu).2 i (by intro hh; rw [← hh] at hti; omega)
          have h9 : ¬ i < t := by rw [Fin.lt_def]; omega
          simp only [stepIdx, h9, if_false, hS0, optIdx, Option.elim_some, hF] at h8
          exact fun hh => h8 (by rw [hh])
        · rw [if_neg hti]
          exact fun hh => ht (hinj hu hh)
    exact fun i => main i i rfl
  have hstep : ∀ (i : Fin size), ∃ b0, F i = eC i b0 ∧ ∀ b, (unique = true → ∀ t, t ≠ i → Settle.hyb c0 F i t ≠ eC i b) →
      E (Settle.hyb c0 F (i + 1)) ≤ E (Function.update (Settle.hyb c0 F i) i (eC i b)) ∧
      (b < b0 → E (Settle.hyb c0 F (i + 1)) < E (Function.update (Settle.hyb c0 F i) i (eC i b))) := by
    intro i
    obtain ⟨bo, hbo⟩ := (hCb i).2 (c0 i)
    obtain ⟨b0, hb0, hch⟩ := core hs hk hreg hF (cb := eC) (fun i b => hbat i b) hlbI (h5 i)
      ⟨bo, by rw [hbat, show Fin.cast rfl bo = bo from rfl, hbo]; exact hallow i _ (hold i)⟩
    refine ⟨b0, hb0, fun b hb => ?_⟩
    obtain ⟨a, ha, hEa⟩ := hE (Settle.hyb c0 F (i + 1))
    obtain ⟨a', ha', hEa'⟩ := hE (Function.update (Settle.hyb c0 F i) i (eC i b))
    rw [hEa, hEa']
    have e1 : (fun t => some (Settle.hyb c0 F (i + 1) t)) = replaceAt F S0 i (F i) := by
      rw [hrep, Settle.hyb_succ]
    have e2 : (fun t => some (Function.update (Settle.hyb c0 F i) i (eC i b) t)) = replaceAt F S0 i (eC i b) := by
      rw [hrep]
    rw [e1] at ha ⊢
    rw [e2] at ha' ⊢
    have := hch b (by rw [hbat, show Fin.cast rfl b = b from rfl]; exact hallow i _ hb) a a' ha ha'
    rw [herr, herr] at this
    exact this
  refine ⟨F, hcF, hFinj, fun i => ?_, fun i j hj => ?_⟩
  · by_cases hi : i < size
    · obtain ⟨b0, hb0, hst⟩ := hstep ⟨i, hi⟩
      obtain ⟨bo, hbo⟩ := (hCb ⟨i, hi⟩).2 (c0 ⟨i, hi⟩)
      have := hst bo (by rw [hbo]; exact hold ⟨i, hi⟩)
      rw [hbo, ← Settle.hyb_self] at this
      refine ⟨this.1, fun heq _ => ?_⟩
      rw [hb0, ← hbo, hr, hr]
      rcases lt_trichotomy bo b0 with hlt | hlt | hlt
      · exact absurd heq (this.2 hlt).ne
      · exact .inl (by rw [hlt])
      · exact .inr hlt
    · have e1 : Settle.hyb c0 F (i + 1) = Settle.hyb c0 F i := by
        funext t
        have := t.2
        unfold Settle.hyb
        rw [if_pos (by omega), if_pos (by omega)]
      rw [e1]
      exact ⟨le_rfl, fun _ h => absurd h hi⟩
  · obtain ⟨b0, -, hst⟩ := hstep i
    obtain ⟨bj, hbj⟩ := (hCb i).2 j
    have := (hst bj (by rw [hbj]; exact hj)).1
    rwa [hbj] at this

end GKPSettle

/-- Repeated refinement with greedy kernel points comes to rest (same key each time, all the data as candidates and in the
loss); where it rests, no exchange of a single member for a permitted row lowers the training error. -/
theorem C107_settles {solve : RlsSolver ℝ} (hs : ExactSolver solve) {k : X → X → ℝ} (hk : IsPSD k) {x : Fin n → X}
    {y : Fin n → ℝ} {reg : ℝ} (hreg : reg ≠ 0) {unique : Bool} {cb lb : Option ℤ} {size : ℕ}
    {permC permL : Fin size → Fin n → ℤ} (hC : PermContract permC) (hL : PermContract permL)
    (hcb : ∀ b, cb = some b → (n : ℤ) ≤ b) (hlb : ∀ b, lb = some b → (n : ℤ) ≤ b) (g : ℕ → Data size ℤ ℝ)
    (G : ℕ → Fin (n + 1) → Fin (n + 1) → ℝ) (c0 : Fin size → Fin n) (h0 : g 0 = ⟨fun t => (c0 t : ℤ), fun _ => 1⟩)
    (hinj : unique = true → Function.Injective c0)
    (hg : ∀ N, gkpRefine solve k x y reg unique cb lb size permC permL (g N).data none = .ok (g (N + 1), G N)) :
    ∃ f : Fin size → Fin n, ∃ N₀, N₀ < n ^ size ∧ (∀ N, N₀ ≤ N → g N = ⟨fun t => (f t : ℤ), fun _ => 1⟩) ∧
      ∀ i j, (unique = true → ∀ t, t ≠ i → f t ≠ j) → ∀ E E', IsTrainingError k x y |reg| f E →
        IsTrainingError k x y |reg| (Function.update f i j) E' → E ≤ E' := by
  have hlam : 0 < |reg| := abs_pos.2 hreg
  choose eC hCb hCe using hC
  choose E hE using GKPSettle.isTrainingError_exists (m := size) hk x y hlam
  have hinv : ∀ i, ∃ r : Fin n → ℕ, ∀ b, r (eC i b) = (b : ℕ) := fun i =>
    ⟨fun j => ((Equiv.ofBijective _ (hCb i)).symm j : Fin n), fun b => by
      simp only
      rw [show eC i b = Equiv.ofBijective _ (hCb i) b from rfl, Equiv.symm_apply_apply]⟩
  choose r hr using hinv
  have hvalid : ∀ N, ∃ f : Fin size → Fin n, g N = ⟨fun t => (f t : ℤ), fun _ => 1⟩ ∧
      (unique = true → Function.Injective f) := by
    intro N
    induction N with
    | zero => exact ⟨c0, h0, hinj⟩
    | succ N ih =>
      obtain ⟨f, hf, hfi⟩ := ih
      have := hg N
      rw [hf] at this
      obtain ⟨F, h1, h2, -⟩ := GKPSettle.pass hs hk hreg hCb hCe hL hcb hlb f hfi this E hE r hr
      exact ⟨F, h1, h2⟩
  choose f hf hfi using hvalid
  have hpass : ∀ N, (∀ i, E (Settle.hyb (f N) (f (N + 1)) (i + 1)) ≤ E (Settle.hyb (f N) (f (N + 1)) i) ∧
        (E (Settle.hyb (f N) (f (N + 1)) (i + 1)) = E (Settle.hyb (f N) (f (N + 1)) i) → ∀ hi : i < size,
          f (N + 1) ⟨i, hi⟩ = f N ⟨i, hi⟩ ∨ r ⟨i, hi⟩ (f (N + 1) ⟨i, hi⟩) < r ⟨i, hi⟩ (f N ⟨i, hi⟩))) ∧
      ∀ (i : Fin size) (j : Fin n), (unique = true → ∀ t, t ≠ i → Settle.hyb (f N) (f (N + 1)) i t ≠ j) →
        E (Settle.hyb (f N) (f (N + 1)) (i + 1)) ≤ E (Function.update (Settle.hyb (f N) (f (N + 1)) i) i j) := by
    intro N
    have := hg N
    rw [hf N] at this
    obtain ⟨F, h1, -, h2, h3⟩ := GKPSettle.pass hs hk hreg hCb hCe hL hcb hlb (f N) (hfi N) this E hE r hr
    rw [hf (N + 1)] at h1
    injection h1 with h1 _
    have : f (N + 1) = F := by
      funext t
      exact Fin.ext (by exact_mod_cast congrFun h1 t)
    rw [this]
    exact ⟨h2, h3⟩
  have hmono : ∀ N p q : ℕ, p ≤ q → E (Settle.hyb (f N) (f (N + 1)) q) ≤ E (Settle.hyb (f N) (f (N + 1)) p) :=
    fun N p q h => antitone_nat_of_succ_le (f := fun i => E (Settle.hyb (f N) (f (N + 1)) i)) (fun i => ((hpass N).1 i).1) h
  obtain ⟨N₀, hN₀, hrest⟩ := Settle.settles_of E r f
    (fun N => by
      have := hmono N 0 size (Nat.zero_le _)
      rwa [Settle.hyb_zero, Settle.hyb_full] at this)
    (fun N heq t => by
      refine ((hpass N).1 t).2 (le_antisymm ((hpass N).1 t).1 ?_) t.2
      have e1 := hmono N (t + 1) size t.2
      have e2 := hmono N 0 t (Nat.zero_le _)
      rw [Settle.hyb_full] at e1
      rw [Settle.hyb_zero] at e2
      exact e2.trans (heq.symm.le.trans e1))
    (fun M N h => by
      have e1 := hg M
      have e2 := hg N
      rw [hf M, h, ← hf N, e2] at e1
      injection e1 with e1
      injection e1 with e1 _
      rw [hf (M + 1), hf (N + 1)] at e1
      injection e1 with e1 _
      funext t
      exact Fin.ext (by exact_mod_cast (congrFun e1 t).symm))
  refine ⟨f N₀, N₀, hN₀, fun N hN => by rw [hf N, hrest N hN], fun i j hij E1 E2 h1 h2 => ?_⟩
  have := (hpass N₀).2 i j
  rw [hrest (N₀ + 1) (by omega), Settle.hyb_same, Settle.hyb_same] at this
  rw [GKPSettle.isTrainingError_unique hk x y hlam h1 (hE _), GKPSettle.isTrainingError_unique hk x y hlam h2 (hE _)]
  exact this hij

/-- The same for the coreset that `reduce` returns. -/
theorem C107_reduce_settles {solve : RlsSolver ℝ} (hs : ExactSolver solve) {k : X → X → ℝ} (hk : IsPSD k) {x : Fin n → X}
    {y : Fin n → ℝ} {reg : ℝ} (hreg : reg ≠ 0) {unique : Bool} {size : ℕ} {permC permL : Fin size → Fin n → ℤ}
    (hC : PermContract permC) (hL : PermContract permL) (g : ℕ → Data size ℤ ℝ)
    (G : ℕ → Fin (n + 1) → Fin (n + 1) → ℝ)
    (h0 : gkpReduce solve k x y reg unique none none size permC permL none = .ok (g 0, G 0))
    (hg : ∀ N, gkpRefine solve k x y reg unique none none size permC permL (g N).data none = .ok (g (N + 1), G (N + 1))) :
    ∃ f : Fin size → Fin n, ∃ N₀, N₀ < n ^ size ∧ (∀ N, N₀ ≤ N → g N = ⟨fun t => (f t : ℤ), fun _ => 1⟩) ∧
      (unique = true → Function.Injective f) ∧
      ∀ i j, (unique = true → ∀ t, t ≠ i → f t ≠ j) → ∀ E E', IsTrainingError k x y |reg| f E →
        IsTrainingError k x y |reg| (Function.update f i j) E' → E ≤ E' := by
  choose e hebij he using hL
  obtain ⟨F, hF, hopt⟩ := C18_optimal hs hk hreg hC (fun b hb => by simp at hb) he (l := n) le_rfl rfl h0
  have hFinj : unique = true → Function.Injective F := by
    intro hu a b hab
    rcases lt_trichotomy a b with h | h | h
    · exact absurd hab ((hopt b).1 hu a h)
    · exact h
    · exact absurd hab.symm ((hopt a).1 hu b h)
  have hw : ∀ t, (g 0).weights t = 1 := by
    unfold gkpReduce initialCoresubset at h0
    by_cases hsz : size > n
    · simp [hsz] at h0
    rw [if_neg hsz] at h0
    exact fun t => (C18_range hs.numeric hC h0 (.inl fun b hb => by simp at hb) t).1
  have hg0 : g 0 = ⟨fun t => (F t : ℤ), fun _ => 1⟩ := by
    have e1 : (g 0).data = fun t => (F t : ℤ) := funext hF
    have e2 : (g 0).weights = fun _ => 1 := funext hw
    rw [← e1, ← e2]
  have hL : PermContract permL := fun i => ⟨e i, hebij i, he i⟩
  obtain ⟨f, N₀, h1, h2, h3⟩ := C107_settles hs hk hreg hC hL (fun b hb => by simp at hb) (fun b hb => by simp at hb) g
    (fun N => G (N + 1)) F hg0 hFinj hg
  refine ⟨f, N₀, h1, h2, fun hu => ?_, h3⟩
  have hinj : ∀ N, Function.Injective (g N).data ∧ ∀ t, 0 ≤ (g N).data t ∧ (g N).data t < n := by
    intro N
    induction N with
    | zero =>
      rw [hg0]
      exact ⟨fun a b hab => hFinj hu (Fin.ext (by simpa using hab)), fun t => ⟨by simp, by simp⟩⟩
    | succ N ih =>
      have := hg N
      subst hu
      exact ⟨C18_distinct hs.numeric hC this (.inr ⟨le_rfl, ih⟩),
        fun t => (C18_range hs.numeric hC this (.inr ⟨le_rfl, ih.2⟩) t).2⟩
  have := (hinj N₀).1
  rw [h2 N₀ le_rfl] at this
  intro a b hab
  exact this (by simp [hab])

/-- A solver that is exact for systems of size two (Cramer's rule). -/
def pairSolve : RlsSolver ℚ := fun {n _} A reg B I => .ok fun t j =>
  if h : n = 2 then
    let i0 : Fin n := ⟨0, by omega⟩
    let i1 : Fin n := ⟨1, by omega⟩
    let a := A i0 i0 + |reg| * I i0 i0
    let b := A i0 i1 + |reg| * I i0 i1
    let c := A i1 i0 + |reg| * I i1 i0
    let d := A i1 i1 + |reg| * I i1 i1
    fin (if (t : ℕ) = 0 then (d * B i0 j - b * B i1 j) / (a * d - b * c) else (a * B i1 j - c * B i0 j) / (a * d - b * c))
  else fin 0

/-- With a small loss batch repeated refinement need not come to rest: each position is judged by another row.  Data 1, 2, 0
with responses 1, 1, 3, kernel `ab + 1`, one row in each loss batch: the coreset alternates between rows (2, 0) and (0, 1). -/
theorem C107_cycles :
    let r : (Fin 2 → ℤ) → Option (List ℤ) := fun c => (gkpRefine pairSolve (fun a b : ℚ => a * b + 1) ![1, 2, 0] ![1, 1, 3] 1 false
      none (some 1) 2 (fun _ t => (t : ℤ)) (fun i t => if i = 0 then (t : ℤ) else (![1, 0, 2] : Fin 3 → ℤ) t) c none).toOption.map
        (fun r => List.ofFn r.1.data);
    r ![2, 0] = some [0, 1] ∧ r ![0, 1] = some [2, 0] ∧
    PermContract (fun (i : Fin 2) (t : Fin 3) => if i = 0 then (t : ℤ) else (![1, 0, 2] : Fin 3 → ℤ) t) := by
  refine ⟨by decide +kernel, by decide +kernel, ?_⟩
  intro i
  fin_cases i
  · exact ⟨id, Function.bijective_id, fun t => by simp⟩
  · exact ⟨![1, 0, 2], by decide, by decide⟩

/-! ### Concrete cases -/

/-- Repeated refinement of three points with a constant kernel and the default solver. -/
example : ∃ (g : ℕ → Data 2 ℤ ℝ) (f : Fin 2 → Fin 3) (N₀ : ℕ), N₀ < 3 ^ 2 ∧
    ∀ N, N₀ ≤ N → g N = ⟨fun t => (f t : ℤ), fun _ => 1⟩ := by
  obtain ⟨lstsq, h⟩ := exists_lstsq
  have hs : ExactSolver (minNormSolve lstsq) := exactSolver_minNorm h
  have hk : IsPSD (fun _ _ : Fin 3 => (1 : ℝ)) := ⟨fun _ _ => rfl, fun m _ c => by
    have : ∑ i, ∑ j, c i * c j * 1 = (∑ i, c i) * ∑ j, c j := by
      rw [Finset.sum_mul_sum]; simp
    rw [this]
    exact mul_self_nonneg _⟩
  have hp : PermContract (fun (_ : Fin 2) (t : Fin 3) => (t : ℤ)) := fun _ => ⟨id, Function.bijective_id, fun _ => rfl⟩
  have hex := fun c : Data 2 ℤ ℝ => gkpRefine_ok (ExactSolver.numeric hs) (fun _ _ => (1 : ℝ)) (fun t : Fin 3 => t) ![1, 2, 5] 1 true none
    none 2 (fun _ t => (t : ℤ)) (fun _ t => (t : ℤ)) none c.data (by decide) (by simp) (by simp)
  choose step G hstep using hex
  obtain ⟨f, N₀, h1, h2, -⟩ := C107_settles hs hk (x := fun t : Fin 3 => t) (y := ![1, 2, 5]) (reg := 1) one_ne_zero
    (unique := true) (cb := none) (lb := none) hp hp (fun b hb => by simp at hb) (fun b hb => by simp at hb)
    (fun N => step^[N] ⟨fun t => ((![2, 0] : Fin 2 → Fin 3) t : ℤ), fun _ => 1⟩) (fun N => G (step^[N] _)) ![2, 0] rfl
    (fun _ => by decide) (fun N => by rw [Function.iterate_succ_apply']; exact hstep _)
  exact ⟨_, f, N₀, h1, h2⟩

/-- The same from the result of `reduce`. -/
example : ∃ (g : ℕ → Data 2 ℤ ℝ) (f : Fin 2 → Fin 3) (N₀ : ℕ), N₀ < 3 ^ 2 ∧
    (∀ N, N₀ ≤ N → g N = ⟨fun t => (f t : ℤ), fun _ => 1⟩) ∧ Function.Injective f := by
  obtain ⟨lstsq, h⟩ := exists_lstsq
  have hs : ExactSolver (minNormSolve lstsq) := exactSolver_minNorm h
  have hk : IsPSD (fun _ _ : Fin 3 => (1 : ℝ)) := ⟨fun _ _ => rfl, fun m _ c => by
    have : ∑ i, ∑ j, c i * c j * 1 = (∑ i, c i) * ∑ j, c j := by
      rw [Finset.sum_mul_sum]; simp
    rw [this]
    exact mul_self_nonneg _⟩
  have hp : PermContract (fun (_ : Fin 2) (t : Fin 3) => (t : ℤ)) := fun _ => ⟨id, Function.bijective_id, fun _ => rfl⟩
  have hex := fun c : Data 2 ℤ ℝ => gkpRefine_ok (ExactSolver.numeric hs) (fun _ _ => (1 : ℝ)) (fun t : Fin 3 => t) ![1, 2, 5] 1 true none
    none 2 (fun _ t => (t : ℤ)) (fun _ t => (t : ℤ)) none c.data (by decide) (by simp) (by simp)
  choose step G hstep using hex
  have h0 := hstep ⟨fun _ => -1, fun _ => 0⟩
  have hred : gkpReduce (minNormSolve lstsq) (fun _ _ => 1) (fun t : Fin 3 => t) ![1, 2, 5] 1 true none none 2 (fun _ t => (t : ℤ))
      (fun _ t => (t : ℤ)) none = .ok (step ⟨fun _ => -1, fun _ => 0⟩, G ⟨fun _ => -1, fun _ => 0⟩) := by
    unfold gkpReduce initialCoresubset
    simp only [gt_iff_lt, Nat.reduceLT, if_false]
    exact h0
  generalize step ⟨fun _ => -1, fun _ => 0⟩ = c0 at hred
  obtain ⟨f, N₀, h1, h2, h3, -⟩ := C107_reduce_settles hs hk (x := fun t : Fin 3 => t) (y := ![1, 2, 5]) (reg := 1) one_ne_zero
    (unique := true) hp hp (fun N => step^[N] c0)
    (fun N => if N = 0 then G ⟨fun _ => -1, fun _ => 0⟩ else G (step^[N - 1] c0)) (by simpa using hred)
    (fun N => by simpa [Function.iterate_succ_apply'] using hstep (step^[N] c0))
  exact ⟨_, f, N₀, h1, h2, h3 rfl⟩

end Coreax
