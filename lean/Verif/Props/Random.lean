import Verif.Lemmas.Nystrom
import Verif.Spec.Kernel

/-!
# C16, C17, C40: random sampling and randomly pivoted Cholesky
-/

set_option linter.unusedSectionVars false

namespace Coreax

open Spec Ext

/-! ### C17: random sampling -/

section
variable {X Y K : Type*} [Field K] [LinearOrder K] [IsStrictOrderedRing K] {n size : ℕ}

/-- A sample of at most `n` points: `size` in-range indices of unit weight into the unchanged dataset, distinct if
`unique`. -/
theorem C17_sample (weighted unique : Bool) (d : DSet n X Y K) (choice : Choice n size K) (hc : ChoiceContract choice)
    (hn : 0 < n) (hs : size ≤ n) :
    ∃ i : Fin size → Fin n, (unique = true → Function.Injective i) ∧
      randomSample weighted unique ⟨n, d⟩ choice = .ok ⟨size, n, ⟨fun t => (i t : ℤ), fun _ => 1⟩, d⟩ := by
  have hf : ∀ r, choiceFails n size r = false := by
    intro r; simp [choiceFails]; omega
  choose i hi using hc.range (if weighted then some d.weights else none) (!unique) (hf _)
  refine ⟨i, fun hu a b hab => ?_, ?_⟩
  · subst hu
    refine hc.distinct (if weighted then some d.weights else none) (hf _) ?_
    have h1 := hi a; have h2 := hi b
    simp only [Bool.not_true] at h1 h2
    rw [h1, h2, hab]
  · have : choice (if weighted then some d.weights else none) (!unique) = fun t => (i t : ℤ) := funext hi
    simp only [randomSample, hf, Bool.false_eq_true, if_false, Coresubset.init, this]
    rw [if_neg (by omega)]

/-- A weighted sample uses points of positive weight only, provided there is one (with replacement) or there are enough
of them (unique). -/
theorem C17_support (unique : Bool) (d : DSet n X Y K) (choice : Choice n size K) (hc : ChoiceContract choice)
    (hw : ∀ j, 0 ≤ d.weights j) (hp : (if unique then size else 1) ≤ (Finset.univ.filter (fun j => 0 < d.weights j)).card)
    {c : Data size ℤ K} (h : randomSample true unique ⟨n, d⟩ choice = .ok ⟨size, n, c, d⟩) (t : Fin size) (j : Fin n)
    (hj : c.data t = j) : 0 < d.weights j := by
  simp only [randomSample, if_true] at h
  split_ifs at h with hf
  simp only [Coresubset.init] at h
  split_ifs at h
  simp only [Except.ok.injEq, Coresubset.mk.injEq, heq_eq_eq, true_and, and_true] at h
  subst h
  refine hc.support d.weights (!unique) hw ?_ t j hj
  cases unique <;> simpa using hp

/-- A `ValueError` exactly when more points are requested than there are, whether or not the sample is unique. -/
theorem C17_error_iff (weighted unique : Bool) (d : DSet n X Y K) (choice : Choice n size K) (hsize : 0 < size) :
    (randomSample weighted unique ⟨n, d⟩ choice = .error .valueError ↔ n < size) ∧
    (∀ e, randomSample weighted unique ⟨n, d⟩ choice = .error e → e = .valueError) := by
  simp only [randomSample, choiceFails, Coresubset.init]
  cases unique
  · by_cases hn : n = 0
    · simp [hn, hsize]
    · by_cases hs : n < size <;> simp [hn, hs]
  · by_cases hn : n = 0
    · simp [hn, hsize]
    · by_cases hs : n < size <;> simp [hn, hs]

/-- Sizes that are not positive are rejected when the solver is constructed, and only those. -/
theorem C17_size_check (size : ℤ) :
    (explicitSize size = .error .valueError ↔ size ≤ 0) ∧ (0 < size → ∃ m : ℕ, explicitSize size = .ok m ∧ (m : ℤ) = size) := by
  unfold explicitSize
  by_cases h : size ≤ 0
  · simp [h]
    try (intro h'; omega)
  · simp [h]
    try omega

/-- The rows of positive weight in order, then the other rows in order. -/
def positiveFirst (p : Option (Fin n → K)) : List (Fin n) :=
  match p with
  | none => List.finRange n
  | some p => (List.finRange n).filter (fun j => decide (0 < p j)) ++ (List.finRange n).filter (fun j => !decide (0 < p j))

/-- A deterministic sampler: the first elements of `positiveFirst` (the very first one, with replacement). -/
def firstChoice : Choice n size K := fun p r t =>
  match (positiveFirst p)[if r then 0 else (t : ℕ)]? with
  | some j => (j : ℤ)
  | none => 0

theorem length_positiveFirst (p : Option (Fin n → K)) : (positiveFirst p).length = n := by
  rcases p with _ | p
  · simp [positiveFirst]
  · have := (List.filter_append_perm (fun j => decide (0 < p j)) (List.finRange n)).length_eq
    simpa [positiveFirst] using this

theorem nodup_positiveFirst (p : Option (Fin n → K)) : (positiveFirst p).Nodup := by
  rcases p with _ | p
  · exact List.nodup_finRange n
  · exact (List.filter_append_perm (fun j => decide (0 < p j)) (List.finRange n)).nodup_iff.2 (List.nodup_finRange n)

/-- The contract can be met. -/
theorem firstChoice_contract : ChoiceContract (firstChoice (n := n) (size := size) (K := K)) := by
  have hget : ∀ (p : Option (Fin n → K)) (r : Bool) (t : Fin size) (h : (if r then 0 else (t : ℕ)) < n),
      firstChoice p r t = (((positiveFirst p)[if r then 0 else (t : ℕ)]'(by rw [length_positiveFirst]; exact h) : Fin n) : ℤ) := by
    intro p r t h
    simp only [firstChoice]
    rw [List.getElem?_eq_getElem (by rw [length_positiveFirst]; exact h)]
  refine ⟨?_, ?_, ?_⟩
  · intro p r hf t
    have h : (if r then 0 else (t : ℕ)) < n := by
      have := t.2
      cases r <;> simp [choiceFails] at hf ⊢ <;> omega
    exact ⟨_, hget p r t h⟩
  · intro p hf a b hab
    simp only [choiceFails, Bool.not_false, Bool.true_and, Bool.or_eq_false_iff, decide_eq_false_iff_not] at hf
    have ha := hget p false a (by have := a.2; simp; omega)
    have hb := hget p false b (by have := b.2; simp; omega)
    rw [ha, hb] at hab
    have : (positiveFirst p)[(a : ℕ)]'(by rw [length_positiveFirst]; have := a.2; omega) =
        (positiveFirst p)[(b : ℕ)]'(by rw [length_positiveFirst]; have := b.2; omega) := by
      refine Fin.ext ?_
      have : ((((positiveFirst p)[(a : ℕ)]'(by rw [length_positiveFirst]; have := a.2; omega) : Fin n) : ℕ) : ℤ) =
        (((positiveFirst p)[(b : ℕ)]'(by rw [length_positiveFirst]; have := b.2; omega) : Fin n) : ℕ) := by simpa using hab
      exact_mod_cast this
    exact Fin.ext (((nodup_positiveFirst p).getElem_inj_iff).1 this)
  · intro p r _ hcard t j hj
    have hlen : ((List.finRange n).filter (fun j => decide (0 < p j))).length =
        (Finset.univ.filter (fun j => 0 < p j)).card := by
      rw [Fin.univ_def, Finset.card_def]
      simp [Finset.filter]
    have hlt : (if r then 0 else (t : ℕ)) < ((List.finRange n).filter (fun j => decide (0 < p j))).length := by
      rw [hlen]
      have := t.2
      cases r <;> simp at hcard ⊢ <;> omega
    have hn : (if r then 0 else (t : ℕ)) < n := by
      refine lt_of_lt_of_le hlt ?_
      refine (List.length_filter_le _ _).trans ?_
      simp
    rw [hget (some p) r t hn] at hj
    have hj' : (positiveFirst (some p))[if r then 0 else (t : ℕ)]'(by rw [length_positiveFirst]; exact hn) = j :=
      Fin.ext (by exact_mod_cast hj)
    simp only [positiveFirst] at hj'
    rw [List.getElem_append_left hlt] at hj'
    have := List.getElem_mem hlt
    rw [hj'] at this
    simpa using (List.mem_filter.1 this).2

/-- Two of the three rows have positive weight; a weighted unique sample of size two takes those. -/
example : (randomSample true true ⟨3, (⟨⟨![5, 6, 7], ![0, 1, 2]⟩, none⟩ : DSet 3 ℚ ℚ ℚ)⟩
    (firstChoice (size := 2))).map (fun c => List.ofFn c.indices.data) = .ok [1, 2] := by decide +kernel

end

/-! ### C16: randomly pivoted Cholesky -/

section
variable {X K : Type*} [Field K] [LinearOrder K] [IsStrictOrderedRing K] {n : ℕ} [NeZero n] {size : ℕ}

/-- Every requested index is in range and has unit weight, whatever the kernel, even after the residual has collapsed to
zero or NaN; with `unique` the indices are distinct. -/
theorem C16_distinct (root : K → K) (k : X → X → K) (x : Fin n → X) (hk : ∀ j, 0 ≤ k (x j) (x j)) (unique : Bool)
    (draw : PivotDraw n K) (hd : PivotContract draw) (hs : size ≤ n) :
    ∃ (i : Fin size → Fin n) (state : Fin n → Ext K), (unique = true → Function.Injective i) ∧
      rpcReduce root k x unique draw size none = .ok (⟨fun t => (i t : ℤ), fun _ => 1⟩, state) := by
  have h := rpcInv_loop (root := root) (k := k) (x := x) (unique := unique) (size := size) hd hs hk (state := none)
    (fun j => Or.inr ⟨_, hk j, le_refl _, rfl⟩)
  choose i hi using fun t : Fin size => h.done t t.2
  refine ⟨i, (rpcLoop root k x unique draw size none (fun _ => (n : ℤ) + 1)).residual, fun hu a b hab => h.inj hu a b a.2 b.2 (by rw [hi, hi, hab]), ?_⟩
  rw [rpcReduce_ok root k x unique draw hs]
  have : (rpcLoop root k x unique draw size none (fun _ => (n : ℤ) + 1)).idx = fun t => (i t : ℤ) := funext hi
  rw [this]

/-- A `ValueError` if and only if more points are requested than there are. -/
theorem C16_error_iff (root : K → K) (k : X → X → K) (x : Fin n → X) (unique : Bool) (draw : PivotDraw n K)
    (state : Option (Fin n → Ext K)) :
    (rpcReduce root k x unique draw size state = .error .valueError ↔ n < size) ∧
    (∀ e, rpcReduce root k x unique draw size state = .error e → e = .valueError) := by
  by_cases h : n < size
  · have : rpcReduce root k x unique draw size state = .error .valueError := by
      simp only [rpcReduce, initialCoresubset]
      rw [if_pos h]
    simp [this, h]
  · rw [rpcReduce_ok root k x unique draw (by omega)]
    simp [h]

/-- The residual diagonal stays between zero and the kernel diagonal as long as it is a number; selected points have
residual zero. -/
theorem C16_residual (root : K → K) (k : X → X → K) (x : Fin n → X) (hk : ∀ j, 0 ≤ k (x j) (x j)) (unique : Bool)
    (draw : PivotDraw n K) (hd : PivotContract draw) {c : Data size ℤ K} {state : Fin n → Ext K}
    (h : rpcReduce root k x unique draw size none = .ok (c, state)) (j : Fin n) (v : K) (hv : state j = fin v) :
    0 ≤ v ∧ v ≤ k (x j) (x j) ∧ (unique = true → (∃ t, c.data t = j) → v = 0) := by
  have hs : size ≤ n := by
    by_contra hcon
    rw [(C16_error_iff root k x unique draw none).1.2 (by omega)] at h
    exact absurd h (by simp)
  rw [rpcReduce_ok root k x unique draw hs] at h
  simp only [Except.ok.injEq, Prod.mk.injEq] at h
  obtain ⟨rfl, rfl⟩ := h
  have h := rpcInv_loop (root := root) (k := k) (x := x) (unique := unique) (size := size) hd hs hk (state := none)
    (fun j => Or.inr ⟨_, hk j, le_refl _, rfl⟩)
  refine ⟨?_, ?_, ?_⟩
  · rcases h.res j with h | ⟨u, h0, h1, h⟩
    · rw [hv] at h; exact absurd h (by simp)
    · rw [hv] at h; have : v = u := by simpa using h
      rw [this]; exact h0
  · rcases h.res j with h | ⟨u, h0, h1, h⟩
    · rw [hv] at h; exact absurd h (by simp)
    · rw [hv] at h; have : v = u := by simpa using h
      rw [this]; exact h1
  · rintro hu ⟨t, ht⟩
    rcases h.zero hu t j t.2 ht with h | h
    · rw [hv] at h; exact absurd h (by simp)
    · rw [hv] at h; simpa using h

/-- The deterministic sampler that takes the (first) largest weight meets the contract. -/
theorem pivotContract_greedy : PivotContract (K := K) (n := n) (fun _ p => nanargmax p) := by
  intro i p h1 ⟨j0, v0, hv0, hj0⟩
  obtain ⟨j, v, hj, hv, hmax⟩ := nanargmax_spec p (fun j hj => by obtain ⟨v, -, h⟩ := h1 j; rw [hj] at h; simp at h)
    ⟨j0, v0, hj0⟩
  exact ⟨j, v, hj, lt_of_lt_of_le hv0 (hmax j0 v0 hj0).1, hv⟩

/-- Three points of which two coincide: the residual collapses after two steps, the third is still new. -/
example : ((rpcReduce (id : ℚ → ℚ) (fun a b : ℚ => if a = b then 1 else 0) (![4, 4, 7] : Fin 3 → ℚ) true (fun _ p => nanargmax p) 3 none).map
    (fun r => List.ofFn r.1.data)) = .ok [0, 2, 1] := by decide +kernel

end

section
variable {X : Type*} {n : ℕ} [NeZero n] {size : ℕ}

/-- With a positive semi-definite kernel the returned residual diagonal is that of the Gram matrix minus its Nyström
approximation from the selected points, and this difference is positive semi-definite; unless the selected columns already
generate the whole Gram matrix, in which case the Nyström approximation is exact. -/
theorem C16_nystrom (k : X → X → ℝ) (hk : IsPSD k) (x : Fin n → X) (unique : Bool)
    (draw : PivotDraw n ℝ) (hd : PivotContract draw) {c : Data size ℤ ℝ} {state : Fin n → Ext ℝ}
    (h : rpcReduce Real.sqrt k x unique draw size none = .ok (c, state)) :
    ∃ A, IsNystrom (fun i j => k (x i) (x j)) {j | ∃ t, c.data t = (j : ℤ)} A ∧
      NonnegForm (fun i j => k (x i) (x j) - A i j) ∧
      ((∀ j, state j = fin (k (x j) (x j) - A j j)) ∨ A = fun i j => k (x i) (x j)) := by
  have hdiag : ∀ j, 0 ≤ k (x j) (x j) := by
    intro j
    have := hk.2 1 (fun _ => x j) (fun _ => 1)
    simpa using this
  have hs : size ≤ n := by
    by_contra hcon
    rw [(C16_error_iff Real.sqrt k x unique draw none).1.2 (by omega)] at h
    exact absurd h (by simp)
  rw [rpcReduce_ok Real.sqrt k x unique draw hs] at h
  simp only [Except.ok.injEq, Prod.mk.injEq] at h
  obtain ⟨rfl, rfl⟩ := h
  set G : Fin n → Fin n → ℝ := fun i j => k (x i) (x j) with hG
  have hGs : ∀ i j, G i j = G j i := fun i j => hk.1 _ _
  have hinv := forLoop_inv
    (P := fun i (s : RPCState n size ℝ) => RPCInv unique (fun j => G j j) i s ∧ (Partial G i s ∨ Exhausted G s.idx i))
    size (rpcBody Real.sqrt k x unique draw) ⟨rpcDiagonal k x none, fun _ _ => fin 0, fun _ => (n : ℤ) + 1⟩
    (by
      refine ⟨⟨fun t ht => absurd ht (by omega), fun _ _ => rfl, fun j => Or.inr ⟨_, hdiag j, le_refl _, rfl⟩,
        fun _ t _ ht => absurd ht (by omega), fun _ t _ ht => absurd ht (by omega)⟩, Or.inl ?_⟩
      refine ⟨fun _ _ => 0, fun _ _ => rfl, fun _ _ _ => rfl, fun j => by simp [rpcDiagonal, hG], ?_, ?_, ?_⟩
      · intro c
        simpa [hG] using hk.2 n x c
      · rintro s' ⟨t, ht, -⟩; omega
      · intro t; exact Submodule.zero_mem _)
    (by
      rintro i s ⟨hI, hP⟩
      obtain ⟨p, hp, hpn⟩ := pivot_spec hd hs (fun t ht => hI.done t ht) (fun t ht => hI.todo t ht)
        (fun j => (hI.res j).imp id (fun ⟨v, h0, _, h1⟩ => ⟨v, h0, h1⟩))
      refine ⟨rpcInv_step hd hs hdiag hI, ?_⟩
      have hexh : Exhausted G s.idx i → Exhausted G (rpcBody Real.sqrt k x unique draw i s).idx (i + 1) :=
        fun h j => columnSpan_mono (selected_step hp) (h j)
      rcases hP with hP | hP
      · rcases hpn with ⟨-, hbad⟩ | ⟨-, hpos⟩
        · right
          refine hexh (exhausted_of_zero hGs hP ?_)
          rcases hbad with h0 | ⟨j, hj⟩
          · exact h0
          · obtain ⟨F, -, -, hr, -⟩ := hP
            rw [hr j] at hj
            exact absurd hj (by simp)
        · exact Or.inl (partial_step hk.1 hp hP hpos)
      · exact Or.inr (hexh hP))
  obtain ⟨-, hP⟩ := hinv
  have hsel : ∀ idx : Fin size → ℤ, (selected idx size : Set (Fin n)) = {j : Fin n | ∃ t, idx t = (j : ℤ)} := by
    intro idx; ext j; simp [selected]
  rcases hP with ⟨F, -, -, hr, hpsd, hex, hspan⟩ | hP
  · refine ⟨fun i j => ∑ t, F i t * F j t, ⟨fun i j => Finset.sum_congr rfl fun t _ => mul_comm _ _, ?_, ?_⟩, hpsd, Or.inl hr⟩
    · intro s' hs' j
      exact hex s' (by rw [hsel]; exact hs') j
    · intro j
      have : (fun l => ∑ t, F l t * F j t) = ∑ t, F j t • fun l => F l t := by
        funext l
        simp only [Finset.sum_apply, Pi.smul_apply, smul_eq_mul]
        exact Finset.sum_congr rfl fun t _ => mul_comm _ _
      rw [this, ← hsel]
      exact Submodule.sum_mem _ fun t _ => Submodule.smul_mem _ _ (hspan t)
  · refine ⟨G, ⟨hGs, fun _ _ _ => rfl, fun j => ?_⟩, fun c => by simp [hG], Or.inr rfl⟩
    have := hP j
    rwa [hsel] at this

/-- The hypotheses can be met: the linear kernel on the line, with the deterministic sampler. -/
example : ∃ c state A, rpcReduce Real.sqrt (fun a b : ℝ => a * b) ![1, 2, 3] true (fun _ p => nanargmax p) 2 none =
      .ok (c, state) ∧ IsNystrom (fun i j => (![1, 2, 3] : Fin 3 → ℝ) i * (![1, 2, 3] : Fin 3 → ℝ) j)
        {j | ∃ t, c.data t = (j : ℤ)} A := by
  have hk : IsPSD (fun a b : ℝ => a * b) := by
    refine ⟨fun a b => mul_comm a b, fun n x c => ?_⟩
    have : ∑ i, ∑ j, c i * c j * (x i * x j) = (∑ i, c i * x i) * ∑ j, c j * x j := by
      rw [Finset.sum_mul_sum]
      exact Finset.sum_congr rfl fun i _ => Finset.sum_congr rfl fun j _ => by ring
    rw [this]
    exact mul_self_nonneg _
  obtain ⟨i, state, -, h⟩ := C16_distinct (size := 2) Real.sqrt (fun a b : ℝ => a * b) (![1, 2, 3] : Fin 3 → ℝ)
    (fun j => mul_self_nonneg _) true (fun _ p => nanargmax p) pivotContract_greedy (by norm_num)
  obtain ⟨A, hA, -⟩ := C16_nystrom (fun a b : ℝ => a * b) hk ![1, 2, 3] true _ pivotContract_greedy h
  exact ⟨_, state, A, h, hA⟩

/-- The Nyström approximation of `C16_nystrom` is determined by the selected points. -/
theorem C16_nystrom_unique (k : X → X → ℝ) (hk : IsPSD k) (x : Fin n → X) (S : Set (Fin n)) (A B : Fin n → Fin n → ℝ)
    (hA : IsNystrom (fun i j => k (x i) (x j)) S A) (hB : IsNystrom (fun i j => k (x i) (x j)) S B) : A = B :=
  isNystrom_unique (fun c => by simpa using hk.2 n x c) (fun _ _ => hk.1 _ _) hA hB

end

/-! ### C40: reuse of the solver state -/

section
variable {X K : Type*} [Field K] [LinearOrder K] [IsStrictOrderedRing K] {n : ℕ} [NeZero n] {size : ℕ}

/-- The state that would reproduce a fresh run is the kernel diagonal. -/
theorem C40_fresh (root : K → K) (k : X → X → K) (x : Fin n → X) (unique : Bool) (draw : PivotDraw n K) :
    rpcReduce root k x unique draw size (some fun j => fin (k (x j) (x j))) =
      rpcReduce root k x unique draw size none := rfl

theorem rpc_live_or_dead {root : K → K} (hroot : RootPos root) {k : X → X → K} {x : Fin n → X} {unique : Bool}
    {draw : PivotDraw n K} (hd : PivotContract draw) (hs : size ≤ n) {d : Option (Fin n → Ext K)}
    (h0 : (∀ j, ∃ v, 0 ≤ v ∧ rpcDiagonal k x d j = fin v) ∨ ∀ j, rpcDiagonal k x d j = nan ∨ rpcDiagonal k x d j = fin 0) :
    let s := rpcLoop root k x unique draw size d (fun _ => (n : ℤ) + 1)
    ((∀ j, ∃ v, rpcDiagonal k x d j = fin v) ∧ (∀ j, ∃ v, 0 ≤ v ∧ s.residual j = fin v) ∧
      ∀ j, rpcDiagonal k x d j = fin 0 → s.residual j = fin 0 ∧ ∀ t, s.idx t ≠ j) ∨ Dead s := by
  have hb : ∀ j, rpcDiagonal k x d j = nan ∨ ∃ v, 0 ≤ v ∧ rpcDiagonal k x d j = fin v := by
    intro j
    rcases h0 with h | h
    · exact Or.inr (h j)
    · exact (h j).imp id (fun h => ⟨0, le_refl _, h⟩)
  -- a bound for the numbers among the initial residuals
  obtain ⟨b, hb0, hbd⟩ : ∃ b : Fin n → K, (∀ j, 0 ≤ b j) ∧
      ∀ j, rpcDiagonal k x d j = nan ∨ ∃ v, 0 ≤ v ∧ v ≤ b j ∧ rpcDiagonal k x d j = fin v := by
    have : ∀ j, ∃ b : K, 0 ≤ b ∧ (rpcDiagonal k x d j = nan ∨ ∃ v, 0 ≤ v ∧ v ≤ b ∧ rpcDiagonal k x d j = fin v) := by
      intro j
      rcases hb j with h | ⟨v, h0, h⟩
      · exact ⟨0, le_refl _, Or.inl h⟩
      · exact ⟨v, h0, Or.inr ⟨v, h0, le_refl _, h⟩⟩
    choose b h1 h2 using this
    exact ⟨b, h1, h2⟩
  have hinv := forLoop_inv
    (P := fun i (s : RPCState n size K) => RPCInv unique b i s ∧
      ((Live s ∧ (∀ j, ∃ v, rpcDiagonal k x d j = fin v) ∧ ∀ j, rpcDiagonal k x d j = fin 0 → s.residual j = fin 0 ∧ ∀ t : Fin size, (t : ℕ) < i → s.idx t ≠ j) ∨ Dead s))
    size (rpcBody root k x unique draw) ⟨rpcDiagonal k x d, fun _ _ => fin 0, fun _ => (n : ℤ) + 1⟩
    (by
      refine ⟨⟨fun t ht => absurd ht (by omega), fun _ _ => rfl, hbd,
        fun _ t _ ht => absurd ht (by omega), fun _ t _ ht => absurd ht (by omega)⟩, ?_⟩
      rcases h0 with h | h
      · exact Or.inl ⟨⟨⟨fun _ _ => 0, fun _ _ => rfl⟩, h⟩, fun j => (h j).imp fun v hv => hv.2, fun j hj => ⟨hj, fun t ht => absurd ht (by omega)⟩⟩
      · exact Or.inr h)
    (by
      rintro i s ⟨hI, hP⟩
      obtain ⟨p, hp, hpn⟩ := pivot_spec hd hs (fun t ht => hI.done t ht) (fun t ht => hI.todo t ht)
        (fun j => (hI.res j).imp id (fun ⟨v, h0, _, h1⟩ => ⟨v, h0, h1⟩))
      refine ⟨rpcInv_step hd hs hb0 hI, ?_⟩
      rcases hP with ⟨hL, hfin, hZ⟩ | hP
      · rcases hpn with ⟨-, hbad⟩ | ⟨-, v, hv, hpv⟩
        · -- the fallback is only used when all residuals are zero
          right
          refine dead_step hp (fun j => ?_)
          rcases hbad with h0 | ⟨j', hj'⟩
          · exact Or.inr (h0 j)
          · obtain ⟨v, -, hv⟩ := hL.2 j'
            rw [hv] at hj'; exact absurd hj' (by simp)
        · rcases live_or_dead hroot (unique := unique) hp hL with h | h
          · refine Or.inl ⟨h, hfin, fun j hj => ⟨?_, ?_⟩⟩
            · obtain ⟨h0, -⟩ := hZ j hj
              obtain ⟨u, hu, hju⟩ := h.2 j
              have hle : ∀ w, (rpcBody root k x unique draw i s).residual j = fin w → w ≤ 0 := by
                intro w hw
                rw [(rpcBody_eq root k x unique draw i s hp).2] at hw
                split_ifs at hw
                · have : 0 = w := by simpa using hw
                  exact this.ge
                · rcases clip_le (b := 0) (Or.inr ⟨0, le_refl _, le_refl _, h0⟩)
                    (pivotColumn k x s.approx p j / Ext.sqrt root (pivotColumn k x s.approx p p)) with h | ⟨v, -, h1, h⟩
                  · rw [hw] at h; exact absurd h (by simp)
                  · rw [hw] at h; have : w = v := by simpa using h
                    rw [this]; exact h1
              rw [hju, le_antisymm (hle u hju) hu]
            · intro t ht hcon
              rw [(rpcBody_eq root k x unique draw i s hp).1] at hcon
              by_cases hti : t = i
              · subst hti
                rw [Function.update_self] at hcon
                have hjp : p = j := Fin.ext (by exact_mod_cast hcon)
                rw [hjp, (hZ j hj).1] at hpv
                have : (0 : K) = v := by simpa using hpv
                exact hv.ne this
              · rw [Function.update_of_ne hti] at hcon
                have : (t : ℕ) ≠ i := fun h => hti (Fin.ext h)
                exact (hZ j hj).2 t (by omega) hcon
          · exact Or.inr h
      · exact Or.inr (dead_step hp hP))
  obtain ⟨-, ⟨hL, hfin, hZ⟩ | hD⟩ := hinv
  · exact Or.inl ⟨hfin, hL.2, fun j hj => ⟨(hZ j hj).1, fun t => (hZ j hj).2 t t.2⟩⟩
  · exact Or.inr hD

/-- What reusing the state does: as long as the residual has not collapsed at the end of the second run (some entry is
still positive), the second run cannot select any point of the first run. -/
theorem C40_disjoint (root : K → K) (hroot : RootPos root) (k : X → X → K) (x : Fin n → X) (hk : ∀ j, 0 ≤ k (x j) (x j))
    (draw draw' : PivotDraw n K) (hd : PivotContract draw) (hd' : PivotContract draw') {size' : ℕ} (unique' : Bool)
    {c : Data size ℤ K} {c' : Data size' ℤ K} {state state' : Fin n → Ext K}
    (h : rpcReduce root k x true draw size none = .ok (c, state))
    (h' : rpcReduce root k x unique' draw' size' (some state) = .ok (c', state'))
    (hpos : ∃ j v, 0 < v ∧ state' j = fin v) : ∀ t t', c.data t ≠ c'.data t' := by
  have hs : size ≤ n := by
    by_contra hcon
    rw [(C16_error_iff root k x true draw none).1.2 (by omega)] at h
    exact absurd h (by simp)
  have hs' : size' ≤ n := by
    by_contra hcon
    rw [(C16_error_iff root k x unique' draw' (some state)).1.2 (by omega)] at h'
    exact absurd h' (by simp)
  rw [rpcReduce_ok root k x true draw hs] at h
  rw [rpcReduce_ok root k x unique' draw' hs'] at h'
  simp only [Except.ok.injEq, Prod.mk.injEq] at h h'
  obtain ⟨rfl, hst⟩ := h
  obtain ⟨rfl, rfl⟩ := h'
  have hI := rpcInv_loop (root := root) (k := k) (x := x) (unique := true) (size := size) hd hs hk (state := none)
    (fun j => Or.inr ⟨_, hk j, le_refl _, rfl⟩)
  have h1 := rpc_live_or_dead hroot (k := k) (x := x) (unique := true) hd hs (d := none)
    (Or.inl fun j => ⟨_, hk j, rfl⟩)
  have h2 := rpc_live_or_dead hroot (k := k) (x := x) (unique := unique') hd' hs' (d := some state) (by
    rcases h1 with h1 | h1
    · left
      intro j
      obtain ⟨v, hv, h⟩ := h1.2.1 j
      exact ⟨v, hv, by simp only [rpcDiagonal]; rw [← hst]; exact h⟩
    · right
      intro j
      simp only [rpcDiagonal]
      rw [← hst]
      exact h1 j)
  obtain ⟨j0, v0, hv0, hj0⟩ := hpos
  rcases h2 with ⟨hdf, -, hz⟩ | hD
  · intro t t' hcon
    obtain ⟨j, hj⟩ := hI.done t t.2
    have hjz : state j = fin 0 := by
      obtain ⟨v, h⟩ := hdf j
      simp only [rpcDiagonal] at h
      rcases hI.zero rfl t j t.2 hj with h' | h'
      · rw [hst, h] at h'; exact absurd h' (by simp)
      · rw [← hst]; exact h'
    exact (hz j hjz).2 t' (hcon.symm.trans hj)
  · rcases hD j0 with h | h
    · rw [hj0] at h; exact absurd h (by simp)
    · rw [hj0] at h
      have : v0 = 0 := by simpa using h
      exact absurd this hv0.ne'

/-- Two orthogonal points, one selected at a time by the sampler that takes the largest weight. -/
def orthoRun (state : Option (Fin 2 → Ext ℚ)) : Except Err (Data 1 ℤ ℚ × (Fin 2 → Ext ℚ)) :=
  rpcReduce id (fun a b : ℚ => if a = b then 1 else 0) ![4, 7] true (fun _ p => nanargmax p) 1 state

/-- Reusing the returned state is not equivalent to a fresh run: with the same kernel, data, key and size the fresh run
selects point 0 and the run from the returned state selects point 1. -/
theorem C40_reuse_differs :
    PivotContract (K := ℚ) (n := 2) (fun _ p => nanargmax p) ∧
    ∃ c c' state state', orthoRun none = .ok (c, state) ∧ orthoRun (some state) = .ok (c', state') ∧
      c.data 0 = 0 ∧ c'.data 0 = 1 :=
  ⟨pivotContract_greedy, ⟨fun _ => 0, fun _ => 1⟩, ⟨fun _ => 1, fun _ => 1⟩, ![fin 0, fin 1], ![fin 0, fin 0], by
    unfold orthoRun
    rw [rpcReduce_ok _ _ _ _ _ (by norm_num)]
    refine congrArg Except.ok (Prod.ext (Data.ext (funext ?_) rfl) (funext ?_)) <;> decide +kernel, by
    unfold orthoRun
    rw [rpcReduce_ok _ _ _ _ _ (by norm_num)]
    refine congrArg Except.ok (Prod.ext (Data.ext (funext ?_) rfl) (funext ?_)) <;> decide +kernel, rfl, rfl⟩

/-- With three orthogonal points the second run of size one leaves a positive residual and is disjoint from the first. -/
example : ∃ c c' : Data 1 ℤ ℚ, ∃ state state' : Fin 3 → Ext ℚ,
    rpcReduce id (fun a b : ℚ => if a = b then 1 else 0) ![4, 7, 9] true (fun _ p => nanargmax p) 1 none =
      .ok (c, state) ∧
    rpcReduce id (fun a b : ℚ => if a = b then 1 else 0) ![4, 7, 9] true (fun _ p => nanargmax p) 1 (some state) =
      .ok (c', state') ∧ (∃ j v, 0 < v ∧ state' j = fin v) ∧ c.data 0 ≠ c'.data 0 :=
  ⟨⟨fun _ => 0, fun _ => 1⟩, ⟨fun _ => 1, fun _ => 1⟩, ![fin 0, fin 1, fin 1], ![fin 0, fin 0, fin 1], by
    rw [rpcReduce_ok _ _ _ _ _ (by norm_num)]
    refine congrArg Except.ok (Prod.ext (Data.ext (funext ?_) rfl) (funext ?_)) <;> decide +kernel, by
    rw [rpcReduce_ok _ _ _ _ _ (by norm_num)]
    refine congrArg Except.ok (Prod.ext (Data.ext (funext ?_) rfl) (funext ?_)) <;> decide +kernel,
    ⟨2, 1, by norm_num, rfl⟩, by decide⟩

example : RootPos (id : ℚ → ℚ) := ⟨rfl, fun _ h => h⟩

end

example := C17_sample true true (⟨⟨![5, 6, 7], ![0, 1, 2]⟩, none⟩ : DSet 3 ℚ ℚ ℚ) (firstChoice (size := 2)) firstChoice_contract (by norm_num) (by norm_num)

example : ∃ i : Fin 2 → Fin 3, ∀ t (j : Fin 3), ((i t : ℕ) : ℤ) = (j : ℕ) → 0 < (⟨⟨![5, 6, 7], ![0, 1, 2]⟩, none⟩ : DSet 3 ℚ ℚ ℚ).weights j := by
  obtain ⟨i, -, h⟩ := C17_sample true true (⟨⟨![5, 6, 7], ![0, 1, 2]⟩, none⟩ : DSet 3 ℚ ℚ ℚ) (firstChoice (size := 2)) firstChoice_contract (by norm_num) (by norm_num)
  exact ⟨i, fun t j hj => C17_support true (⟨⟨![5, 6, 7], ![0, 1, 2]⟩, none⟩ : DSet 3 ℚ ℚ ℚ) _ firstChoice_contract (by decide +kernel) (by decide +kernel) h t j hj⟩

example := C17_error_iff true true (⟨⟨![5, 6, 7], ![0, 1, 2]⟩, none⟩ : DSet 3 ℚ ℚ ℚ) (firstChoice (size := 4)) (by norm_num)

example : ∃ c state, rpcReduce id (fun a b : ℚ => a * b) ![1, 2, 3] true (fun _ p => nanargmax p) 2 none = .ok (c, state) ∧ ∀ j v, state j = fin v → 0 ≤ v := by
  obtain ⟨i, state, -, h⟩ := C16_distinct (size := 2) id (fun a b : ℚ => a * b) (![1, 2, 3] : Fin 3 → ℚ) (fun j => mul_self_nonneg _) true (fun _ p => nanargmax p) pivotContract_greedy (by norm_num)
  exact ⟨_, state, h, fun j v hv => (C16_residual id _ _ (fun j => mul_self_nonneg _) true _ pivotContract_greedy h j v hv).1⟩

end Coreax
