import Verif.Props.HerdingMMD

/-!
# C11-C14, C41: laws of kernel herding: padding, state, block size, iteration
-/

set_option linter.unusedSectionVars false

namespace Coreax

open Greedy Spec

variable {X K : Type*} [Zero X] [Field K] [LinearOrder K] [IsStrictOrderedRing K]
variable {n : ℕ} [NeZero n] {m : ℕ}

/-! ### C13 -/

theorem Greedy.padWeights_castAdd {N p : ℕ} (w : Fin N → K) (j : Fin N) : padWeights w p (Fin.castAdd p j) = w j := by
  simp [padWeights]

theorem Greedy.lt_of_padWeights_pos {N p : ℕ} {w : Fin N → K} {j : Fin (N + p)} (h : 0 < padWeights w p j) :
    ∃ l : Fin N, j = Fin.castAdd p l := by
  revert h
  refine Fin.addCases (fun a => ?_) (fun a => ?_) j
  · intro _; exact ⟨a, rfl⟩
  · intro h; simp [padWeights] at h

theorem Greedy.posCount_pad {N p M : ℕ} {w : Fin N → K} (h : PosCount w M) : PosCount (padWeights w p) M := by
  unfold PosCount at *
  refine h.trans ?_
  refine Finset.card_le_card_of_injOn (Fin.castAdd p) ?_ ((Fin.castAdd_injective N p).injOn)
  intro j hj
  have hj' : 0 < w j := by simpa using hj
  exact Finset.mem_coe.2 (Finset.mem_filter.2 ⟨Finset.mem_univ _, by rwa [Greedy.padWeights_castAdd]⟩)

theorem Greedy.firstMax_castAdd {N p : ℕ} {al : Fin (N + p) → Prop} {sc : Fin (N + p) → K} {j : Fin N}
    (h : IsFirstMax al sc (Fin.castAdd p j)) :
    IsFirstMax (fun l => al (Fin.castAdd p l)) (fun l => sc (Fin.castAdd p l)) j :=
  ⟨h.1, fun l hl => h.2.1 _ hl, fun l hlt hl => h.2.2 _ (by rw [Fin.lt_def] at hlt ⊢; exact hlt) hl⟩

theorem Greedy.herdingReduce_padded {N p : ℕ} (k : X → X → K) (x : Fin N → X) (z : Fin p → X) (w : Fin N → K)
    (unique : Bool) {size : ℕ} (F : Fin size → Fin (N + p))
    (h : HerdingReduce k (Fin.append x z) (padWeights w p) unique F) :
    ∃ f : Fin size → Fin N, (∀ i, F i = Fin.castAdd p (f i)) ∧ HerdingReduce k x w unique f := by
  choose f hf using fun i => Greedy.lt_of_padWeights_pos (h i).1.1
  refine ⟨f, hf, fun i => ?_⟩
  have hi := h i
  rw [hf i] at hi
  have := Greedy.firstMax_castAdd hi
  have e1 : ∀ j, avg (padWeights w p) (fun l => k (Fin.append x z l) (x j))
      = avg w (fun l => k (x l) (x j)) := by
    intro j
    exact avg_padded' w (fun a => k a (x j)) x z
  simp only [e1, hf, Fin.append_left, Greedy.padWeights_castAdd] at this
  convert this using 3 with j
  simp [Fin.ext_iff]

/-- Appending zero-weight rows with arbitrary contents does not change which points (deterministic) herding chooses:
padding is never selected, so the zero padding of map-reduce is harmless. -/
theorem C13_herding_padding {p : ℕ} [NeZero (n + p)] (big : K) (k : X → X → K) (hk : ∀ a b, k a b = k b a)
    (unique : Bool) (bs bs' : PyTree (Option ℤ)) (hbs : ValidBlock bs) (hbs' : ValidBlock bs') (size : ℕ)
    (hsize : 0 < size) (pre : Data n X K) (hw : ∑ j, pre.weights j ≠ 0) (z : Fin p → X)
    (ord ord' : List (Fin (size + (size - size)))) (hord : ∀ t, t ∈ ord) (hord' : ∀ t, t ∈ ord')
    (hpos : PosCount pre.weights size) :
    ∃ f : Fin size → Fin n, ∃ st st',
      herdingReduce big k none unique bs size pre none ord = .ok (⟨fun t => (f t : ℤ), fun _ => 1⟩, st) ∧
      herdingReduce big k none unique bs' size
        (⟨Fin.append pre.data z, padWeights pre.weights p⟩ : Data (n + p) X K) none ord'
          = .ok (⟨fun t => (f t : ℤ), fun _ => 1⟩, st') := by
  obtain ⟨f, hf, hrun⟩ := C12_reduce_greedy big k hk unique bs hbs size hsize pre hw none (by simp) ord hord hpos
  obtain ⟨F, hF, hrun'⟩ := C12_reduce_greedy big k hk unique bs' hbs' size hsize
    (⟨Fin.append pre.data z, padWeights pre.weights p⟩ : Data (n + p) X K) (by simpa [sum_padWeights] using hw) none (by simp)
    ord' hord' (Greedy.posCount_pad hpos)
  obtain ⟨f', hFf, hrun''⟩ := Greedy.herdingReduce_padded k pre.data z pre.weights unique F hrun'
  have : f' = f := C12_reduce_determined k pre.data pre.weights unique f' f hrun'' hrun
  subst this
  have hFz : (fun t => ((F t : ℕ) : ℤ)) = fun t => ((f' t : ℕ) : ℤ) := by
    funext t; rw [hFf t]; rfl
  rw [hFz] at hF
  exact ⟨f', _, _, hf, hF⟩

example := C13_herding_padding (p := 2) 1000 (fun a b : ℚ => a * b + 1) (fun a b => by ring) true (.leaf none) (.leaf (some 2)) (.inl rfl) (.inl rfl) 2 (by norm_num) (⟨![0, 1, 3], ![1, 2, 0]⟩ : Data 3 ℚ ℚ) (by decide +kernel) ![0, 7] [0, 1] [1, 0] (by decide) (by decide) (by unfold PosCount; decide +kernel)

/-! ### C14 -/

/-- The state returned by a run can be passed to a later run on the same data: the result is the same, in any mode. -/
theorem C14_state_reuse (big : K) (k : X → X → K) (prob : Option (Draw n K)) (unique : Bool)
    (bs : PyTree (Option ℤ)) (size : ℕ) (pre : Data n X K) (c : Data m ℤ K) (ord : List (Fin (m + (size - m))))
    (r : Data size ℤ K) (st : List K) (h : herdingRefine big k prob unique bs size pre c none ord = .ok (r, st)) :
    herdingRefine big k prob unique bs size pre c (some st) ord = .ok (r, st) ∧
      gramianRowMean big k pre bs = .ok st := by
  unfold herdingRefine at h ⊢
  simp only [cachedRowMean] at h ⊢
  split at h
  · cases h
  · rename_i rm hrm
    split at h
    · cases h
    · rename_i r' hr'
      injection h with h
      injection h with h1 h2
      subst h1 h2
      exact ⟨by simp [hr'], hrm⟩

/-- A state exists, since the refinement of these data succeeds. -/
example : ∃ r st, herdingRefine 1000 (fun a b : ℚ => a * b + 1) none true (.leaf none) 2 (⟨![0, 1, 3], ![1, 2, 0]⟩ : Data 3 ℚ ℚ) (⟨fun _ => 1, fun _ => 1⟩ : Data 1 ℤ ℚ) none [0, 1] = .ok (r, st) ∧
    herdingRefine 1000 (fun a b : ℚ => a * b + 1) none true (.leaf none) 2 (⟨![0, 1, 3], ![1, 2, 0]⟩ : Data 3 ℚ ℚ) (⟨fun _ => 1, fun _ => 1⟩ : Data 1 ℤ ℚ) (some st) [0, 1] = .ok (r, st) := by
  obtain ⟨f, st, h, -⟩ := C11_refine_valid (m := 1) 1000 (fun a b : ℚ => a * b + 1) none true (.leaf none) (.inl rfl) 2 (by norm_num) (⟨![0, 1, 3], ![1, 2, 0]⟩ : Data 3 ℚ ℚ) (fun _ h => by simp at h) ⟨fun _ => 1, fun _ => 1⟩ (by unfold Greedy.InRange; decide) none [0, 1] (by decide) (by unfold PosCount; decide +kernel)
  exact ⟨_, st, h, (C14_state_reuse _ _ _ _ _ _ _ _ _ _ st h).1⟩

/-- A state that does not depend on the coreset: it may come from a run with a different size, start or mode. -/
theorem C14_state_transfer (big : K) (k : X → X → K) (prob prob' : Option (Draw n K)) (unique unique' : Bool)
    (bs : PyTree (Option ℤ)) (size size' : ℕ) (pre : Data n X K) {m' : ℕ} (c : Data m ℤ K) (c' : Data m' ℤ K)
    (ord : List (Fin (m + (size - m)))) (ord' : List (Fin (m' + (size' - m')))) (r : Data size ℤ K) (st : List K)
    (h : herdingRefine big k prob unique bs size pre c none ord = .ok (r, st)) :
    herdingRefine big k prob' unique' bs size' pre c' (some st) ord'
      = herdingRefine big k prob' unique' bs size' pre c' none ord' := by
  have hst := (C14_state_reuse big k prob unique bs size pre c ord r st h).2
  unfold herdingRefine
  simp only [cachedRowMean, hst]

example : ∃ st, herdingRefine 1000 (fun a b : ℚ => a * b + 1) none false (.leaf none) 3 (⟨![0, 1, 3], ![1, 2, 0]⟩ : Data 3 ℚ ℚ) (⟨fun _ => 0, fun _ => 1⟩ : Data 1 ℤ ℚ) (some st) [0, 1, 2] =
    herdingRefine 1000 (fun a b : ℚ => a * b + 1) none false (.leaf none) 3 (⟨![0, 1, 3], ![1, 2, 0]⟩ : Data 3 ℚ ℚ) (⟨fun _ => 0, fun _ => 1⟩ : Data 1 ℤ ℚ) none [0, 1, 2] := by
  obtain ⟨f, st, h, -⟩ := C11_refine_valid (m := 1) 1000 (fun a b : ℚ => a * b + 1) none true (.leaf none) (.inl rfl) 2 (by norm_num) (⟨![0, 1, 3], ![1, 2, 0]⟩ : Data 3 ℚ ℚ) (fun _ h => by simp at h) ⟨fun _ => 1, fun _ => 1⟩ (by unfold Greedy.InRange; decide) none [0, 1] (by decide) (by unfold PosCount; decide +kernel)
  exact ⟨st, C14_state_transfer _ _ _ _ _ _ _ _ _ _ _ _ _ _ _ st h⟩

/-- The block size changes nothing, whatever kernel, weights, mode or state. -/
theorem C14_block_size (big : K) (k : X → X → K) (prob : Option (Draw n K)) (unique : Bool)
    (bs bs' : PyTree (Option ℤ)) (hbs : ValidBlock bs) (hbs' : ValidBlock bs') (size : ℕ) (pre : Data n X K)
    (c : Data m ℤ K) (state : Option (List K)) (ord : List (Fin (m + (size - m)))) :
    herdingRefine big k prob unique bs size pre c state ord
      = herdingRefine big k prob unique bs' size pre c state ord := by
  have h1 : cachedRowMean big k pre bs state = cachedRowMean big k pre bs' state := by
    cases state with
    | some l => rfl
    | none => exact C05_block_size_irrelevant big k pre pre .zero bs bs' hbs hbs'
  have h2 : ∀ sel, greedySelection big k pre bs unique sel size c ord
      = greedySelection big k pre bs' unique sel size c ord := by
    intro sel
    unfold greedySelection initPenalty
    simp only [C05_block_size_irrelevant big k _ _ .one bs bs' hbs hbs']
  unfold herdingRefine
  simp only [h1, h2]

example := C14_block_size (m := 1) 1000 (fun a b : ℚ => a * b + 1) none true (.leaf none) (.leaf (some 2)) (.inl rfl) (.inl rfl) 2 (⟨![0, 1, 3], ![1, 2, 0]⟩ : Data 3 ℚ ℚ) ⟨fun _ => 1, fun _ => 1⟩ none [0, 1]

/-- The unspecified order of conflicting scatter writes never matters for `reduce`. -/
theorem C14_reduce_scatter_order (big : K) (k : X → X → K) (hk : ∀ a b, k a b = k b a) (unique : Bool)
    (bs : PyTree (Option ℤ)) (hbs : ValidBlock bs) (size : ℕ) (hsize : 0 < size) (pre : Data n X K)
    (hw : ∑ j, pre.weights j ≠ 0) (ord ord' : List (Fin (size + (size - size)))) (hord : ∀ t, t ∈ ord)
    (hord' : ∀ t, t ∈ ord') (hpos : PosCount pre.weights size) :
    herdingReduce big k none unique bs size pre none ord = herdingReduce big k none unique bs size pre none ord' := by
  obtain ⟨f, hf, hrun⟩ := C12_reduce_greedy big k hk unique bs hbs size hsize pre hw none (by simp) ord hord hpos
  obtain ⟨f', hf', hrun'⟩ := C12_reduce_greedy big k hk unique bs hbs size hsize pre hw none (by simp) ord' hord' hpos
  rw [hf, hf', C12_reduce_determined k pre.data pre.weights unique f f' hrun hrun']

example := C14_reduce_scatter_order 1000 (fun a b : ℚ => a * b + 1) (fun a b => by ring) true (.leaf none) (.inl rfl) 2 (by norm_num) (⟨![0, 1, 3], ![1, 2, 0]⟩ : Data 3 ℚ ℚ) (by decide +kernel) [0, 1] [1, 0] (by decide) (by decide) (by unfold PosCount; decide +kernel)

/-- Herding only sees the kernel on the data and the normalised weights: rescaling all weights by a positive factor
changes neither the coreset nor the state. -/
theorem C14_weight_scale (big : K) (k : X → X → K) (hk : ∀ a b, k a b = k b a) (unique : Bool)
    (bs : PyTree (Option ℤ)) (hbs : ValidBlock bs) (size : ℕ) (hsize : 0 < size) (pre : Data n X K)
    (hw : ∑ j, pre.weights j ≠ 0) (ord : List (Fin (size + (size - size)))) (hord : ∀ t, t ∈ ord)
    (hpos : PosCount pre.weights size) (a : K) (ha : 0 < a) :
    herdingReduce big k none unique bs size ⟨pre.data, fun j => a * pre.weights j⟩ none ord
      = herdingReduce big k none unique bs size pre none ord := by
  have hiff : ∀ j, 0 < a * pre.weights j ↔ 0 < pre.weights j := fun j => by
    constructor
    · intro h; exact (mul_pos_iff_of_pos_left ha).1 h
    · intro h; exact mul_pos ha h
  have hpos' : PosCount (fun j => a * pre.weights j) size := by
    unfold PosCount at *; simpa only [hiff] using hpos
  have havg : ∀ g : Fin n → K, avg (fun j => a * pre.weights j) g = avg pre.weights g := by
    intro g
    simp only [avg, mul_assoc, ← Finset.mul_sum]
    rw [mul_div_mul_left _ _ ha.ne']
  obtain ⟨f, hf, hrun⟩ := C12_reduce_greedy big k hk unique bs hbs size hsize pre hw none (by simp) ord hord hpos
  obtain ⟨f', hf', hrun'⟩ := C12_reduce_greedy big k hk unique bs hbs size hsize
    ⟨pre.data, fun j => a * pre.weights j⟩ (by rw [← Finset.mul_sum]; exact mul_ne_zero ha.ne' hw) none (by simp)
    ord hord hpos'
  have hrun'' : HerdingReduce k pre.data pre.weights unique f' := by
    intro i
    simpa only [hiff, havg] using hrun' i
  rw [hf, hf', C12_reduce_determined k pre.data pre.weights unique f f' hrun hrun'']
  simp only [havg]

example := C14_weight_scale 1000 (fun a b : ℚ => a * b + 1) (fun a b => by ring) true (.leaf none) (.inl rfl) 2 (by norm_num) (⟨![0, 1, 3], ![1, 2, 0]⟩ : Data 3 ℚ ℚ) (by decide +kernel) [0, 1] (by decide) (by unfold PosCount; decide +kernel) 5 (by norm_num)

/-- Iterative refinement: zero iterations give the zero-weighted initial coreset; one more iteration is one more
`refine` of the previous result with the same state. -/
theorem C14_iterative (big : K) (k : X → X → K) (prob : ℕ → Option (Draw n K)) (unique : Bool)
    (bs : PyTree (Option ℤ)) (size : ℕ) (pre : Data n X K) (state : Option (List K))
    (ord : List (Fin (size + (size - size)))) (hle : size ≤ n) (rm : List K)
    (hrm : cachedRowMean big k pre bs state = .ok rm) :
    herdingReduceIterative big k prob unique bs size pre state ord 0 = .ok (⟨fun _ => 0, fun _ => 0⟩, rm) ∧
    (∀ N, herdingReduceIterative big k prob unique bs size pre state ord (N + 1) =
      match herdingReduceIterative big k prob unique bs size pre state ord N with
      | .error e => .error e
      | .ok (c, rm) => herdingRefine big k (prob N) unique bs size pre c (some rm) ord) := by
  constructor
  · unfold herdingReduceIterative initialCoresubset
    rw [if_neg (by omega)]
    simp [hrm, forLoop]
  · intro N
    unfold herdingReduceIterative initialCoresubset
    rw [if_neg (by omega)]
    simp only [hrm, forLoop, Fin.val_last, Fin.val_castSucc]
    generalize forLoop N _ _ = acc
    rcases acc with e | r
    · rfl
    · simp only
      unfold herdingRefine
      simp only [cachedRowMean]
      rcases greedySelection big k pre bs unique (herdingSelect (prob N) (asVec n rm)) size r ord with e | v <;> rfl

example := C14_iterative 1000 (fun a b : ℚ => a * b + 1) (fun _ => none) true (.leaf none) 2 (⟨![0, 1, 3], ![1, 2, 0]⟩ : Data 3 ℚ ℚ) (some [1, 2, 3]) [0, 1] (by norm_num) [1, 2, 3] rfl

/-- A single iteration is `reduce`. -/
theorem C14_iterative_one (big : K) (k : X → X → K) (prob : ℕ → Option (Draw n K)) (unique : Bool)
    (bs : PyTree (Option ℤ)) (hbs : ValidBlock bs) (size : ℕ) (pre : Data n X K) (state : Option (List K))
    (ord : List (Fin (size + (size - size)))) :
    herdingReduceIterative big k prob unique bs size pre state ord 1
      = herdingReduce big k (prob 0) unique bs size pre state ord := by
  by_cases hle : size ≤ n
  · obtain ⟨rm, hrm⟩ : ∃ rm, cachedRowMean big k pre bs state = .ok rm := by
      cases state with
      | some l => exact ⟨l, rfl⟩
      | none =>
        obtain ⟨l, hl, -⟩ := (C05_mean_errors big k pre pre .zero bs).2.1 hbs (NeZero.pos n) (NeZero.pos n)
        exact ⟨l, hl⟩
    obtain ⟨h0, h1⟩ := C14_iterative big k prob unique bs size pre state ord hle rm hrm
    rw [h1 0, h0]
    unfold herdingReduce initialCoresubset
    rw [if_neg (by omega)]
    simp only
    unfold herdingRefine
    rw [hrm]
    rfl
  · unfold herdingReduceIterative herdingReduce initialCoresubset
    rw [if_pos (by omega)]

example := C14_iterative_one 1000 (fun a b : ℚ => a * b + 1) (fun _ => none) true (.leaf none) (.inl rfl) 2 (⟨![0, 1, 3], ![1, 2, 0]⟩ : Data 3 ℚ ℚ) none [0, 1]

/-! ### Iterated refinement: validity and descent -/

/-- A refinement pass over a full, uniformly weighted coreset never increases the MMD (kernel constant on the diagonal). -/
theorem C41_herding_refine_descent (big : K) (k : X → X → K) (hk : ∀ a b, k a b = k b a) (unique : Bool)
    (bs : PyTree (Option ℤ)) (hbs : ValidBlock bs) (hm : 0 < m) (pre : Data n X K)
    (hdiag : ∀ i j, k (pre.data i) (pre.data i) = k (pre.data j) (pre.data j))
    (hw : ∑ j, pre.weights j ≠ 0) (c : Fin m → Fin n) (u : K) (hu : 0 < u) (hcpos : ∀ t, 0 < pre.weights (c t))
    (hinj : unique = true → Function.Injective c) (state : Option (List K))
    (hst : ∀ l, state = some l → gramianRowMean big k pre bs = .ok l)
    (ord : List (Fin (m + (m - m)))) (hord : ∀ t, t ∈ ord) (hpos : PosCount pre.weights m) :
    ∃ f : Fin m → Fin n, ∃ st, herdingRefine big k none unique bs m pre ⟨fun t => (c t : ℤ), fun _ => u⟩ state ord
        = .ok (⟨fun t => (f t : ℤ), fun _ => 1⟩, st) ∧ gramianRowMean big k pre bs = .ok st ∧
      (∀ t, 0 < pre.weights (f t)) ∧ (unique = true → Function.Injective f) ∧
      mmdSq k pre.data pre.weights (fun t => pre.data (f t)) (fun _ => 1)
        ≤ mmdSq k pre.data pre.weights (fun t => pre.data (c t)) (fun _ => 1) := by
  have hcw : ∀ t, (padIndices (⟨fun t => (c t : ℤ), fun _ => u⟩ : Data m ℤ K) m).weights t = u := by
    intro t
    refine Fin.addCases (fun a => ?_) (fun a => ?_) t
    · simp [padIndices, zeroPad]
    · exact absurd a.2 (by omega)
  have hin : InRange (K := K) n (⟨fun t => (c t : ℤ), fun _ => u⟩ : Data m ℤ K) := by
    intro t
    have := (c t).2
    exact ⟨by simp, by simp⟩
  have hmem : members (K := K) (⟨fun t => (c t : ℤ), fun _ => u⟩ : Data m ℤ K) = c := by
    funext t; simp [members]
  obtain ⟨f, hf, hrun⟩ := C12_refine_greedy big k hk unique bs hbs m hm pre hw
    ⟨fun t => (c t : ℤ), fun _ => u⟩ hin ⟨u, hu, fun _ => Or.inr rfl⟩ (fun _ t t' _ _ => by rw [hcw]; exact hu)
    state hst ord hord (by simpa using hpos)
  rw [hmem] at hrun
  obtain ⟨f', st', hf', h1, h2⟩ := C11_refine_valid big k none unique bs hbs m hm pre (by intro d hd; cases hd)
    ⟨fun t => (c t : ℤ), fun _ => u⟩ hin state ord hord (by simpa using hpos)
  have hff : f' = f := by
    rw [hf] at hf'
    injection hf' with hf'
    injection hf' with hf' _
    injection hf' with hf' _
    funext t
    have := congrFun hf' t
    exact (Fin.ext (by exact_mod_cast this)).symm
  subst hff
  exact ⟨f', _, hf, C05_gramian_row_mean big k hk (NeZero.pos n) pre hw bs hbs, h1, h2,
    (C41_refine_mmd_descent k hk pre.data pre.weights hdiag unique c f' u hu hcpos hinj hrun).2⟩

example := C41_herding_refine_descent 1000 (fun a b : ℚ => if a = b then (1 : ℚ) else 0) (fun a b => by simp only [eq_comm]) true (.leaf none) (.inl rfl) (by norm_num) (⟨![0, 1, 3], ![1, 2, 0]⟩ : Data 3 ℚ ℚ) (fun _ _ => by simp) (by decide +kernel) ![0, 1] 3 (by norm_num) (by decide +kernel) (fun _ => by decide) none (by simp) [0, 1] (by decide) (by unfold PosCount; decide +kernel)

/-- Every number of iterations (at least one) of iterative refinement gives a valid coreset, and the MMD never increases
with the number of iterations. -/
theorem C41_iterative_descent (big : K) (k : X → X → K) (hk : ∀ a b, k a b = k b a) (unique : Bool)
    (bs : PyTree (Option ℤ)) (hbs : ValidBlock bs) (size : ℕ) (hsize : 0 < size) (pre : Data n X K)
    (hdiag : ∀ i j, k (pre.data i) (pre.data i) = k (pre.data j) (pre.data j))
    (hw : ∑ j, pre.weights j ≠ 0) (ord : List (Fin (size + (size - size)))) (hord : ∀ t, t ∈ ord)
    (hpos : PosCount pre.weights size) :
    ∃ f : ℕ → Fin size → Fin n, ∃ st, ∀ N,
      herdingReduceIterative big k (fun _ => none) unique bs size pre none ord (N + 1)
        = .ok (⟨fun t => (f N t : ℤ), fun _ => 1⟩, st) ∧
      (∀ t, 0 < pre.weights (f N t)) ∧ (unique = true → Function.Injective (f N)) ∧
      mmdSq k pre.data pre.weights (fun t => pre.data (f (N + 1) t)) (fun _ => 1)
        ≤ mmdSq k pre.data pre.weights (fun t => pre.data (f N t)) (fun _ => 1) := by
  have hle : size ≤ n := by
    refine hpos.trans ?_
    simpa using Finset.card_le_univ (Finset.univ.filter (fun j => 0 < pre.weights j))
  have hrm := C05_gramian_row_mean big k hk (NeZero.pos n) pre hw bs hbs
  set st := List.ofFn fun j => avg pre.weights (fun i => k (pre.data i) (pre.data j)) with hstdef
  obtain ⟨h0, hs⟩ := C14_iterative big k (fun _ => none) unique bs size pre none ord hle st hrm
  -- validity of each iterate
  have hvalid : ∀ N, ∃ f : Fin size → Fin n,
      herdingReduceIterative big k (fun _ => none) unique bs size pre none ord (N + 1)
        = .ok (⟨fun t => (f t : ℤ), fun _ => 1⟩, st) ∧
      (∀ t, 0 < pre.weights (f t)) ∧ (unique = true → Function.Injective f) := by
    intro N
    induction N with
    | zero =>
      obtain ⟨f, st', h1, h2, h3⟩ := C11_reduce_valid big k none unique bs hbs size hsize pre
        (by intro d hd; cases hd) none ord hord hpos
      obtain ⟨f', h1', -⟩ := C12_reduce_greedy big k hk unique bs hbs size hsize pre hw none (by simp) ord hord hpos
      rw [h1] at h1'
      injection h1' with h1'
      injection h1' with _ h1'
      refine ⟨f, ?_, h2, h3⟩
      rw [C14_iterative_one big k _ unique bs hbs, h1, h1']
    | succ N ih =>
      obtain ⟨f, hf, h2, h3⟩ := ih
      obtain ⟨f', st', hf', hst', h2', h3', -⟩ := C41_herding_refine_descent big k hk unique bs hbs hsize pre hdiag hw
        f 1 one_pos h2 h3 (some st) (by intro l hl; cases hl; exact hrm) ord hord hpos
      refine ⟨f', ?_, h2', h3'⟩
      rw [hs (N + 1), hf]
      simp only
      rw [hf']
      rw [hrm] at hst'
      injection hst' with hst'
      rw [hst']
  choose f hf h2 h3 using hvalid
  refine ⟨f, st, fun N => ⟨hf N, h2 N, h3 N, ?_⟩⟩
  obtain ⟨f', st', hf', -, -, -, hdesc⟩ := C41_herding_refine_descent big k hk unique bs hbs hsize pre hdiag hw
    (f N) 1 one_pos (h2 N) (h3 N) (some st) (by intro l hl; cases hl; exact hrm) ord hord hpos
  have heq := hf (N + 1)
  rw [hs (N + 1), hf N] at heq
  simp only at heq
  rw [hf'] at heq
  injection heq with heq
  injection heq with heq _
  injection heq with heq _
  have : f' = f (N + 1) := by
    funext t
    exact Fin.ext (by exact_mod_cast congrFun heq t)
  rwa [this] at hdesc

example := C41_iterative_descent 1000 (fun a b : ℚ => if a = b then (1 : ℚ) else 0) (fun a b => by simp only [eq_comm]) true (.leaf none) (.inl rfl) 2 (by norm_num) (⟨![0, 1, 3], ![1, 2, 0]⟩ : Data 3 ℚ ℚ) (fun _ _ => by simp) (by decide +kernel) [0, 1] (by decide) (by unfold PosCount; decide +kernel)

end Coreax
