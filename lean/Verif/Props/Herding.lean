import Verif.Lemmas.GreedySpec

/-!
# C11-C14: kernel herding

`/repo/coreax/solvers/coresubset.py:59-413`.
-/

set_option linter.unusedSectionVars false

namespace Coreax

open Greedy

variable {X K : Type*} [Zero X] [Field K] [LinearOrder K] [IsStrictOrderedRing K]
variable {n : ℕ} [NeZero n] {m : ℕ}

/-- At least `m` rows have positive weight. -/
def Spec.PosCount (w : Fin n → K) (m : ℕ) : Prop := m ≤ (Finset.univ.filter (fun j => 0 < w j)).card

/-- Contract of the random draw of probabilistic herding: on residuals without NaN and `+inf`, of which some are
numbers, an index with a numeric residual is drawn (`softmax` gives probability zero to `-inf`, and `jr.choice` never
draws an index of probability zero). -/
def DrawContract (prob : Option (Draw n K)) (w : Fin n → K) : Prop :=
  ∀ draw, prob = some draw → (∀ j, 0 < w j) ∧
    ∀ i r, (∀ j, r j ≠ Ext.nan) → (∀ j, r j ≠ Ext.pinf) → (∃ j v, r j = Ext.fin v) →
      ∃ (j : Fin n) (v : K), draw i r = (j : ℤ) ∧ r j = Ext.fin v

theorem Greedy.enough_of_posCount {w : Fin n → K} {unique : Bool} {M : ℕ} (hM : 0 < M) (h : Spec.PosCount w M) :
    Enough w unique M := by
  unfold Enough
  split_ifs
  · exact h
  · obtain ⟨j, hj⟩ := Finset.card_pos.1 (lt_of_lt_of_le hM h)
    exact ⟨j, (Finset.mem_filter.1 hj).2⟩

theorem Greedy.prob_selects {prob : Option (Draw n K)} {w : Fin n → K} (hd : DrawContract prob w) (rm : Fin n → K) :
    Selects w (herdingSelect prob rm) (fun _ _ _ _ => True) := by
  cases prob with
  | none =>
    intro i mp size h1 h2 h3 h4
    obtain ⟨j, v, a, b, -⟩ := herding_selects w rm i mp size h1 h2 h3 h4
    exact ⟨j, v, a, b, trivial⟩
  | some draw =>
    obtain ⟨hw, hdraw⟩ := hd draw rfl
    intro i mp size hsize hninf hnan ⟨j0, v0, hj0⟩
    have hs : (size : K) ≠ 0 := by exact_mod_cast hsize.ne'
    have hres : ∀ j, (∃ v v', mp j = Ext.fin v' ∧ herdingResidual rm mp size j = Ext.fin v) ∨
        herdingResidual rm mp size j = Ext.ninf := by
      intro j
      rcases hm : mp j with _ | _ | v | _
      · exact absurd (hw j) (hnan j hm)
      · exact absurd hm (hninf j)
      · left
        exact ⟨rm j - v / size, v, rfl, by simp [herdingResidual, hm, Ext.fin_div_fin hs]⟩
      · right
        simp [herdingResidual, hm, Ext.pinf_div_fin (Nat.cast_nonneg (α := K) size)]
    obtain ⟨j, v, hj, hv⟩ := hdraw i (herdingResidual rm mp size)
      (fun j => by rcases hres j with ⟨v, -, -, h⟩ | h <;> simp [h])
      (fun j => by rcases hres j with ⟨v, -, -, h⟩ | h <;> simp [h])
      ⟨j0, rm j0 - v0 / size, by simp [herdingResidual, hj0, Ext.fin_div_fin hs]⟩
    rcases hres j with ⟨_, v', h, -⟩ | h
    · exact ⟨j, v', hj, h, trivial⟩
    · rw [h] at hv; cases hv

/-! ### C11 -/

/-- Refining any coresubset with in-range indices (any weights), in deterministic or probabilistic mode and with or
without a cached state, returns exactly `size` in-range indices of unit weight, all of positive data weight and (if
`unique`) distinct.  Enough positively weighted rows are needed: as many as the larger of `size` and the old coreset. -/
theorem C11_refine_valid (big : K) (k : X → X → K) (prob : Option (Draw n K)) (unique : Bool)
    (bs : PyTree (Option ℤ)) (hbs : ValidBlock bs) (size : ℕ) (hsize : 0 < size) (pre : Data n X K)
    (hprob : DrawContract prob pre.weights) (c : Data m ℤ K) (hc : InRange n c) (state : Option (List K))
    (ord : List (Fin (m + (size - m)))) (hord : ∀ t, t ∈ ord) (hpos : Spec.PosCount pre.weights (max size m)) :
    ∃ (f : Fin size → Fin n) (st : List K),
      herdingRefine big k prob unique bs size pre c state ord = .ok (⟨fun t => (f t : ℤ), fun _ => 1⟩, st) ∧
      (∀ t, 0 < pre.weights (f t)) ∧ (unique = true → Function.Injective f) := by
  have hM : max size m = m + (size - m) := by omega
  rw [hM] at hpos
  have hen : Enough pre.weights unique (m + (size - m)) := enough_of_posCount (by omega) hpos
  have hrm : ∃ rm, cachedRowMean big k pre bs state = Except.ok rm := by
    cases state with
    | some l => exact ⟨l, rfl⟩
    | none =>
      obtain ⟨l, hl, -⟩ := (C05_mean_errors big k pre pre .zero bs).2.1 hbs (NeZero.pos n) (NeZero.pos n)
      exact ⟨l, hl⟩
  obtain ⟨rm, hrm⟩ := hrm
  obtain ⟨off, s, g, hrun, hinv, -⟩ := Greedy.run big k pre hbs unique (prob_selects hprob (asVec n rm)) hsize c hc
    hord hen
  refine ⟨outRows g, rm, ?_, fun t => hinv.pos _ t.2, fun hu => ?_⟩
  · unfold herdingRefine
    rw [hrm]
    simp only [hrun]
    rfl
  · intro t t' h
    by_contra hne
    rcases lt_or_gt_of_ne hne with hlt | hlt
    · exact hinv.distinct hu (t.castLE (out_le_padded m size)) (t'.castLE _) hlt t'.2 h
    · exact hinv.distinct hu (t'.castLE (out_le_padded m size)) (t.castLE _) hlt t.2 h.symm

open Spec in
example := C11_refine_valid (m := 1) 1000 (fun a b : ℚ => a * b + 1) none true (.leaf none) (.inl rfl) 2 (by norm_num) (⟨![0, 1, 3], ![1, 2, 0]⟩ : Data 3 ℚ ℚ) (fun _ h => by simp at h) ⟨fun _ => 1, fun _ => 1⟩ (by unfold Greedy.InRange; decide) none [0, 1] (by decide) (by unfold PosCount; decide +kernel)

theorem Greedy.inRange_zero (size : ℕ) : InRange (K := K) n (⟨fun _ => 0, fun _ => 0⟩ : Data size ℤ K) :=
  fun _ => ⟨le_rfl, Int.natCast_pos.2 (NeZero.pos n)⟩

/-- `reduce`: exactly `size` in-range indices of unit weight, all of positive data weight and (if `unique`) distinct,
as soon as `size` rows have positive weight. -/
theorem C11_reduce_valid (big : K) (k : X → X → K) (prob : Option (Draw n K)) (unique : Bool)
    (bs : PyTree (Option ℤ)) (hbs : ValidBlock bs) (size : ℕ) (hsize : 0 < size) (pre : Data n X K)
    (hprob : DrawContract prob pre.weights) (state : Option (List K))
    (ord : List (Fin (size + (size - size)))) (hord : ∀ t, t ∈ ord) (hpos : Spec.PosCount pre.weights size) :
    ∃ (f : Fin size → Fin n) (st : List K),
      herdingReduce big k prob unique bs size pre state ord = .ok (⟨fun t => (f t : ℤ), fun _ => 1⟩, st) ∧
      (∀ t, 0 < pre.weights (f t)) ∧ (unique = true → Function.Injective f) := by
  have hle : size ≤ n := by
    refine hpos.trans ?_
    simpa using Finset.card_le_univ (Finset.univ.filter (fun j => 0 < pre.weights j))
  obtain ⟨f, st, h1, h2, h3⟩ := C11_refine_valid big k prob unique bs hbs size hsize pre hprob
    ⟨fun _ => 0, fun _ => 0⟩ (inRange_zero size) state ord hord (by simpa using hpos)
  refine ⟨f, st, ?_, h2, h3⟩
  unfold herdingReduce initialCoresubset
  rw [if_neg (by omega)]
  exact h1

/-- `reduce` raises `ValueError` for more points than rows. -/
theorem C11_reduce_too_large (big : K) (k : X → X → K) (prob : Option (Draw n K)) (unique : Bool)
    (bs : PyTree (Option ℤ)) (size : ℕ) (hsize : n < size) (pre : Data n X K) (state : Option (List K))
    (ord : List (Fin (size + (size - size)))) :
    herdingReduce big k prob unique bs size pre state ord = .error .valueError := by
  unfold herdingReduce initialCoresubset
  rw [if_pos hsize]

example := C11_reduce_too_large 1000 (fun a b : ℚ => a * b + 1) none true (.leaf none) 4 (by norm_num) (⟨![0, 1, 3], ![1, 2, 0]⟩ : Data 3 ℚ ℚ) none []

/-! ### C12 -/

theorem Greedy.rowMean_of_state (big : K) (k : X → X → K) (hk : ∀ a b, k a b = k b a) (pre : Data n X K)
    (hw : ∑ j, pre.weights j ≠ 0) (bs : PyTree (Option ℤ)) (hbs : ValidBlock bs) (state : Option (List K))
    (hst : ∀ l, state = some l → gramianRowMean big k pre bs = .ok l) :
    cachedRowMean big k pre bs state
      = Except.ok (List.ofFn fun j => Spec.avg pre.weights (fun i => k (pre.data i) (pre.data j))) := by
  have h := C05_gramian_row_mean big k hk (NeZero.pos n) pre hw bs hbs
  cases state with
  | none => exact h
  | some l => rw [cachedRowMean, ← hst l rfl, h]

/-- Every choice made by `refine` is the exact greedy choice of the herding recursion, for every order of the scatter.
The old coreset must have uniform positive weights, and (if `unique`) no index that occurs both with positive and with
zero weight, counting the zero padding that is added when the old coreset is too short. -/
theorem C12_refine_greedy (big : K) (k : X → X → K) (hk : ∀ a b, k a b = k b a) (unique : Bool)
    (bs : PyTree (Option ℤ)) (hbs : ValidBlock bs) (size : ℕ) (hsize : 0 < size) (pre : Data n X K)
    (hw : ∑ j, pre.weights j ≠ 0) (c : Data m ℤ K) (hc : InRange n c) (hu : Spec.UniformWeights c.weights)
    (hnc : unique = true → NoConflict c n size) (state : Option (List K))
    (hst : ∀ l, state = some l → gramianRowMean big k pre bs = .ok l)
    (ord : List (Fin (m + (size - m)))) (hord : ∀ t, t ∈ ord) (hpos : Spec.PosCount pre.weights (max size m)) :
    ∃ f : Fin size → Fin n, herdingRefine big k none unique bs size pre c state ord
        = .ok (⟨fun t => (f t : ℤ), fun _ => 1⟩,
          List.ofFn fun j => Spec.avg pre.weights (fun i => k (pre.data i) (pre.data j))) ∧
      Spec.HerdingRun k pre.data pre.weights unique (members c) c.weights f := by
  have hM : max size m = m + (size - m) := by omega
  rw [hM] at hpos
  have hen : Enough pre.weights unique (m + (size - m)) := enough_of_posCount (by omega) hpos
  have hrm := Greedy.rowMean_of_state big k hk pre hw bs hbs state hst
  obtain ⟨off, s, g, hrun, hinv, hoff⟩ := Greedy.run big k pre hbs unique
    (herding_selects pre.weights (asVec n (List.ofFn fun j => Spec.avg pre.weights (fun i => k (pre.data i) (pre.data j)))))
    hsize c hc hord hen
  refine ⟨outRows g, ?_, fun i => ?_⟩
  · unfold herdingRefine
    rw [hrm]
    simp only [hrun]
    rfl
  · have := Greedy.run_spec hnc hinv i
    simpa only [asVec_ofFn, hoff hu, zero_add] using this

open Spec in
example := C12_refine_greedy (m := 1) 1000 (fun a b : ℚ => a * b + 1) (fun a b => by ring) true (.leaf none) (.inl rfl) 2 (by norm_num) (⟨![0, 1, 3], ![1, 2, 0]⟩ : Data 3 ℚ ℚ) (by decide +kernel) ⟨fun _ => 1, fun _ => 1⟩ (by unfold Greedy.InRange; decide) ⟨1, by norm_num, fun _ => .inr rfl⟩
  (fun _ => by unfold Greedy.NoConflict; decide) none (by simp) [0, 1] (by decide) (by unfold PosCount; decide +kernel)

/-- The herding recursion from scratch: at step `i` the first maximiser of
`E_w[k(x_j, ·)] - (1/(i+1)) Σ_{t<i} k(x_j, x_{f t})` over the positively weighted (and not yet chosen) points. -/
def Spec.HerdingReduce (k : X → X → K) (x : Fin n → X) (w : Fin n → K) (unique : Bool) {size : ℕ}
    (f : Fin size → Fin n) : Prop :=
  ∀ i, Spec.IsFirstMax (fun j => 0 < w j ∧ (unique = true → ∀ t, t < i → f t ≠ j))
    (fun j => Spec.avg w (fun l => k (x l) (x j)) -
      (∑ t, if t < i then k (x j) (x (f t)) else 0) / ((i : ℕ) + 1 : K)) (f i)

/-- `reduce` follows the herding recursion exactly. -/
theorem C12_reduce_greedy (big : K) (k : X → X → K) (hk : ∀ a b, k a b = k b a) (unique : Bool)
    (bs : PyTree (Option ℤ)) (hbs : ValidBlock bs) (size : ℕ) (hsize : 0 < size) (pre : Data n X K)
    (hw : ∑ j, pre.weights j ≠ 0) (state : Option (List K))
    (hst : ∀ l, state = some l → gramianRowMean big k pre bs = .ok l)
    (ord : List (Fin (size + (size - size)))) (hord : ∀ t, t ∈ ord) (hpos : Spec.PosCount pre.weights size) :
    ∃ f : Fin size → Fin n, herdingReduce big k none unique bs size pre state ord
        = .ok (⟨fun t => (f t : ℤ), fun _ => 1⟩,
          List.ofFn fun j => Spec.avg pre.weights (fun i => k (pre.data i) (pre.data j))) ∧
      Spec.HerdingReduce k pre.data pre.weights unique f := by
  have hle : size ≤ n := by
    refine hpos.trans ?_
    simpa using Finset.card_le_univ (Finset.univ.filter (fun j => 0 < pre.weights j))
  have hz : ∀ t, (padIndices (⟨fun _ => 0, fun _ => 0⟩ : Data size ℤ K) size).weights t = 0 := by
    intro t
    refine Fin.addCases (fun a => ?_) (fun a => ?_) t <;> simp [padIndices, zeroPad]
  obtain ⟨f, h1, h2⟩ := C12_refine_greedy big k hk unique bs hbs size hsize pre hw ⟨fun _ => 0, fun _ => 0⟩
    (inRange_zero size) ⟨1, one_pos, fun _ => Or.inl rfl⟩
    (fun _ t t' _ ht => absurd (hz t) ht.ne') state hst ord hord (by simpa using hpos)
  refine ⟨f, ?_, fun i => ?_⟩
  · unfold herdingReduce initialCoresubset
    rw [if_neg (by omega)]
    exact h1
  · have := h2 i
    simpa [Spec.Allowed, Spec.otherSum, Spec.otherCount, Spec.IsFirstMax] using this

/-- The specification determines the coreset. -/
theorem Greedy.firstMax_unique {α : Fin n → Prop} {s : Fin n → K} {a b : Fin n} (ha : Spec.IsFirstMax α s a)
    (hb : Spec.IsFirstMax α s b) : a = b := by
  rcases lt_trichotomy a b with h | h | h
  · exact absurd (ha.2.1 b hb.1) (not_le.2 (hb.2.2 a h ha.1))
  · exact h
  · exact absurd (hb.2.1 a ha.1) (not_le.2 (ha.2.2 b h hb.1))

/-- The herding recursion determines the coreset. -/
theorem C12_reduce_determined (k : X → X → K) (x : Fin n → X) (w : Fin n → K) (unique : Bool) {size : ℕ}
    (f f' : Fin size → Fin n) (h : Spec.HerdingReduce k x w unique f) (h' : Spec.HerdingReduce k x w unique f') :
    f = f' := by
  have key : ∀ N (i : Fin size), (i : ℕ) < N → f i = f' i := by
    intro N
    induction N with
    | zero => intro i hi; omega
    | succ N ih =>
      intro i hi
      have hlt : ∀ t, t < i → f t = f' t := fun t ht => ih t (by rw [Fin.lt_def] at ht; omega)
      have h1 := h i
      have e1 : (fun j => 0 < w j ∧ (unique = true → ∀ t, t < i → f t ≠ j))
          = fun j => 0 < w j ∧ (unique = true → ∀ t, t < i → f' t ≠ j) := by
        funext j
        refine propext (and_congr Iff.rfl (imp_congr Iff.rfl (forall_congr' fun t => ?_)))
        exact forall_congr' fun ht => by rw [hlt t ht]
      have e2 : ∀ j, (∑ t, if t < i then k (x j) (x (f t)) else 0) = ∑ t, if t < i then k (x j) (x (f' t)) else 0 := by
        intro j
        refine Finset.sum_congr rfl (fun t _ => ?_)
        split_ifs with ht
        · rw [hlt t ht]
        · rfl
      rw [e1] at h1
      simp only [e2] at h1
      exact Greedy.firstMax_unique h1 (h' i)
  funext i
  exact key _ i (Nat.lt_succ_self _)

open Spec in
/-- The recursion is met by points 1 and 0, and so by no others. -/
example (f : Fin 2 → Fin 3) (h : HerdingReduce (fun a b : ℚ => if a = b then (1 : ℚ) else 0) ![0, 1, 3] ![1, 2, 1] false f) : f = ![1, 0] := by
  refine C12_reduce_determined _ _ _ _ _ _ h ?_
  unfold HerdingReduce IsFirstMax
  simp only [Bool.false_eq_true, false_imp_iff, and_true]
  decide +kernel

end Coreax
