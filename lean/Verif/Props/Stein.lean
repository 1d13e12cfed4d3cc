import Verif.Props.HerdingCases

/-!
# C15 (and C13): Stein thinning

`/repo/coreax/solvers/coresubset.py:416-551`.
-/

set_option linter.unusedSectionVars false

namespace Coreax

open Greedy Spec

variable {X K : Type*} [Zero X] [Field K] [LinearOrder K] [IsStrictOrderedRing K]
variable {n : ℕ} [NeZero n] {m : ℕ}

/-- The regularisation vectors seen by the objective (`0` when `regularise=False`). -/
def Spec.regLap (reg : Option (SteinReg n K)) : Fin n → K := match reg with
  | some r => r.lap
  | none => fun _ => 0

/-- See `Spec.regLap`. -/
def Spec.regLogp (reg : Option (SteinReg n K)) : Fin n → K := match reg with
  | some r => r.logp
  | none => fun _ => 0

theorem Greedy.steinRefine_eq (big : K) (k : X → X → K) (unique : Bool) (bs : PyTree (Option ℤ)) (size : ℕ)
    (pre : Data n X K) (c : Data m ℤ K) (reg : Option (SteinReg n K)) (ord : List (Fin (m + (size - m)))) :
    steinRefine big k unique bs size pre c reg ord = greedySelection big k pre bs unique
      (steinSelect (fun j => k (pre.data j) (pre.data j)) (regLap reg) (regLogp reg)) size c ord := by
  cases reg <;> rfl

/-- Refinement returns exactly `size` in-range unit-weight indices of positive data weight, distinct if `unique`, for
every kernel, regularisation and initial coresubset. -/
theorem C15_refine_valid (big : K) (k : X → X → K) (unique : Bool) (bs : PyTree (Option ℤ)) (hbs : ValidBlock bs)
    (size : ℕ) (hsize : 0 < size) (pre : Data n X K) (c : Data m ℤ K) (hc : InRange n c)
    (reg : Option (SteinReg n K)) (ord : List (Fin (m + (size - m)))) (hord : ∀ t, t ∈ ord)
    (hpos : PosCount pre.weights (max size m)) :
    ∃ f : Fin size → Fin n,
      steinRefine big k unique bs size pre c reg ord = .ok ⟨fun t => (f t : ℤ), fun _ => 1⟩ ∧
      (∀ t, 0 < pre.weights (f t)) ∧ (unique = true → Function.Injective f) := by
  have hM : max size m = m + (size - m) := by omega
  rw [hM] at hpos
  have hen : Enough pre.weights unique (m + (size - m)) := enough_of_posCount (by omega) hpos
  obtain ⟨off, s, g, hrun, hinv, -⟩ := Greedy.run big k pre hbs unique
    (stein_selects pre.weights (fun j => k (pre.data j) (pre.data j)) (regLap reg) (regLogp reg)) hsize c hc hord hen
  refine ⟨outRows g, ?_, fun t => hinv.pos _ t.2, fun hu => ?_⟩
  · rw [Greedy.steinRefine_eq]
    exact hrun
  · intro t t' h
    by_contra hne
    rcases lt_or_gt_of_ne hne with hlt | hlt
    · exact hinv.distinct hu (t.castLE (out_le_padded m size)) (t'.castLE _) hlt t'.2 h
    · exact hinv.distinct hu (t'.castLE (out_le_padded m size)) (t.castLE _) hlt t.2 h.symm

/-- Every choice made by `refine` minimises the (regularised) objective over the allowed points, lowest index first. -/
theorem C15_refine_greedy (big : K) (k : X → X → K) (unique : Bool) (bs : PyTree (Option ℤ)) (hbs : ValidBlock bs)
    (size : ℕ) (hsize : 0 < size) (pre : Data n X K) (c : Data m ℤ K) (hc : InRange n c)
    (hu : UniformWeights c.weights) (hnc : unique = true → NoConflict c n size) (reg : Option (SteinReg n K))
    (ord : List (Fin (m + (size - m)))) (hord : ∀ t, t ∈ ord) (hpos : PosCount pre.weights (max size m)) :
    ∃ f : Fin size → Fin n,
      steinRefine big k unique bs size pre c reg ord = .ok ⟨fun t => (f t : ℤ), fun _ => 1⟩ ∧
      SteinRun k pre.data pre.weights (regLap reg) (regLogp reg) unique (members c) c.weights f := by
  have hM : max size m = m + (size - m) := by omega
  rw [hM] at hpos
  have hen : Enough pre.weights unique (m + (size - m)) := enough_of_posCount (by omega) hpos
  obtain ⟨off, s, g, hrun, hinv, hoff⟩ := Greedy.run big k pre hbs unique
    (stein_selects pre.weights (fun j => k (pre.data j) (pre.data j)) (regLap reg) (regLogp reg)) hsize c hc hord hen
  refine ⟨outRows g, ?_, fun i => ?_⟩
  · rw [Greedy.steinRefine_eq]
    exact hrun
  · have := Greedy.run_spec hnc hinv i
    simpa only [hoff hu, zero_add] using this

/-- The Stein thinning recursion from scratch: at step `i` the first minimiser of
`k(x_j, x_j) + Δ⁺_j - (i+1) λ log p_j + 2 Σ_{t<i} k(x_j, x_{f t})` over the positively weighted (unchosen) points. -/
def Spec.SteinReduce (k : X → X → K) (x : Fin n → X) (w lap logp : Fin n → K) (unique : Bool) {size : ℕ}
    (f : Fin size → Fin n) : Prop :=
  ∀ i : Fin size, (0 < w (f i) ∧ (unique = true → ∀ t, t < i → f t ≠ f i)) ∧
    ∀ j, (0 < w j ∧ (unique = true → ∀ t, t < i → f t ≠ j)) →
      let obj := fun j => k (x j) (x j) + lap j - ((i : ℕ) + 1 : K) * logp j + 2 * ∑ t, if t < i then k (x j) (x (f t)) else 0
      obj (f i) ≤ obj j ∧ (j < f i → obj (f i) < obj j)

/-- `reduce` follows that recursion exactly. -/
theorem C15_reduce_greedy (big : K) (k : X → X → K) (unique : Bool) (bs : PyTree (Option ℤ)) (hbs : ValidBlock bs)
    (size : ℕ) (hsize : 0 < size) (pre : Data n X K) (reg : Option (SteinReg n K))
    (ord : List (Fin (size + (size - size)))) (hord : ∀ t, t ∈ ord) (hpos : PosCount pre.weights size) :
    ∃ f : Fin size → Fin n,
      steinReduce big k unique bs size pre reg ord = .ok ⟨fun t => (f t : ℤ), fun _ => 1⟩ ∧
      SteinReduce k pre.data pre.weights (regLap reg) (regLogp reg) unique f ∧
      (unique = true → Function.Injective f) := by
  have hle : size ≤ n := by
    refine hpos.trans ?_
    simpa using Finset.card_le_univ (Finset.univ.filter (fun j => 0 < pre.weights j))
  have hz : ∀ t, (padIndices (⟨fun _ => 0, fun _ => 0⟩ : Data size ℤ K) size).weights t = 0 := by
    intro t
    refine Fin.addCases (fun a => ?_) (fun a => ?_) t <;> simp [padIndices, zeroPad]
  obtain ⟨f, h1, h2⟩ := C15_refine_greedy big k unique bs hbs size hsize pre ⟨fun _ => 0, fun _ => 0⟩
    (inRange_zero size) ⟨1, one_pos, fun _ => Or.inl rfl⟩
    (fun _ t t' _ ht => absurd (hz t) ht.ne') reg ord hord (by simpa using hpos)
  refine ⟨f, ?_, fun i => ?_, fun hun t t' htt => ?_⟩
  · unfold steinReduce initialCoresubset
    rw [if_neg (by omega)]
    exact h1
  · obtain ⟨ha, hb, hc⟩ := h2 i
    simp only [Allowed, otherSum, lt_irrefl, and_false, if_false, Finset.sum_const_zero, add_zero, false_implies,
      implies_true, and_true, neg_le_neg_iff, neg_lt_neg_iff] at ha hb hc
    exact ⟨ha, fun j hj => ⟨hb j hj, fun hlt => hc j hlt hj⟩⟩
  · by_contra hne
    rcases lt_or_gt_of_ne hne with hlt | hlt
    · exact ((h2 t').1.2 hun).1 t hlt htt
    · exact ((h2 t).1.2 hun).1 t' hlt htt.symm

/-- `reduce` raises `ValueError` for more points than rows. -/
theorem C15_reduce_too_large (big : K) (k : X → X → K) (unique : Bool) (bs : PyTree (Option ℤ)) (size : ℕ)
    (hsize : n < size) (pre : Data n X K) (reg : Option (SteinReg n K)) (ord : List (Fin (size + (size - size)))) :
    steinReduce big k unique bs size pre reg ord = .error .valueError := by
  unfold steinReduce initialCoresubset
  rw [if_pos hsize]

/-- The recursion determines the coreset. -/
theorem C15_reduce_determined (k : X → X → K) (x : Fin n → X) (w lap logp : Fin n → K) (unique : Bool) {size : ℕ}
    (f f' : Fin size → Fin n) (h : SteinReduce k x w lap logp unique f) (h' : SteinReduce k x w lap logp unique f') :
    f = f' := by
  have key : ∀ N (i : Fin size), (i : ℕ) < N → f i = f' i := by
    intro N
    induction N with
    | zero => intro i hi; omega
    | succ N ih =>
      intro i hi
      have hlt : ∀ t, t < i → f t = f' t := fun t ht => ih t (by rw [Fin.lt_def] at ht; omega)
      have hu : ∀ j, (∀ t, t < i → f t ≠ j) ↔ ∀ t, t < i → f' t ≠ j := by
        intro j
        exact forall_congr' fun t => forall_congr' fun ht => by rw [hlt t ht]
      have e2 : ∀ j, (∑ t, if t < i then k (x j) (x (f t)) else 0) = ∑ t, if t < i then k (x j) (x (f' t)) else 0 := by
        intro j
        refine Finset.sum_congr rfl (fun t _ => ?_)
        split_ifs with ht
        · rw [hlt t ht]
        · rfl
      obtain ⟨a1, b1⟩ := h i
      obtain ⟨a2, b2⟩ := h' i
      simp only [hu, e2] at a1 b1
      have c1 := b1 (f' i) a2
      have c2 := b2 (f i) a1
      rcases lt_trichotomy (f i) (f' i) with hh | hh | hh
      · exact absurd c1.1 (not_le.2 (c2.2 hh))
      · exact hh
      · exact absurd c2.1 (not_le.2 (c1.2 hh))
  funext i
  exact key _ i (Nat.lt_succ_self _)

/-- Unregularised Stein thinning is invariant to zero-weight padding with arbitrary contents. -/
theorem C13_stein_padding {p : ℕ} [NeZero (n + p)] (big : K) (k : X → X → K) (unique : Bool)
    (bs bs' : PyTree (Option ℤ)) (hbs : ValidBlock bs) (hbs' : ValidBlock bs') (size : ℕ) (hsize : 0 < size)
    (pre : Data n X K) (z : Fin p → X) (ord ord' : List (Fin (size + (size - size)))) (hord : ∀ t, t ∈ ord)
    (hord' : ∀ t, t ∈ ord') (hpos : PosCount pre.weights size) :
    ∃ f : Fin size → Fin n,
      steinReduce big k unique bs size pre none ord = .ok ⟨fun t => (f t : ℤ), fun _ => 1⟩ ∧
      steinReduce big k unique bs' size (⟨Fin.append pre.data z, padWeights pre.weights p⟩ : Data (n + p) X K) none ord'
        = .ok ⟨fun t => (f t : ℤ), fun _ => 1⟩ := by
  obtain ⟨f, hf, hrun, -⟩ := C15_reduce_greedy big k unique bs hbs size hsize pre none ord hord hpos
  obtain ⟨F, hF, hrun', -⟩ := C15_reduce_greedy big k unique bs' hbs' size hsize
    (⟨Fin.append pre.data z, padWeights pre.weights p⟩ : Data (n + p) X K) none ord' hord' (Greedy.posCount_pad hpos)
  choose f' hf' using fun i => Greedy.lt_of_padWeights_pos (hrun' i).1.1
  have hrun'' : SteinReduce k pre.data pre.weights (regLap none) (regLogp none) unique f' := by
    intro i
    obtain ⟨a, b⟩ := hrun' i
    have hinj : ∀ a b : Fin n, Fin.castAdd p a = Fin.castAdd p b ↔ a = b :=
      fun a b => (Fin.castAdd_injective n p).eq_iff
    simp only [hf', Greedy.padWeights_castAdd, ne_eq, hinj] at a
    refine ⟨a, fun j hj => ?_⟩
    have := b (Fin.castAdd p j) (by simpa only [hf', Greedy.padWeights_castAdd, ne_eq, hinj] using hj)
    simp only [hf', Fin.append_left] at this
    refine ⟨this.1, fun hlt => this.2 ?_⟩
    rw [Fin.lt_def] at hlt ⊢
    exact hlt
  have heq : f' = f := C15_reduce_determined k pre.data pre.weights _ _ unique f' f hrun'' hrun
  subst heq
  have hFz : (fun t => ((F t : ℕ) : ℤ)) = fun t => ((f' t : ℕ) : ℤ) := by
    funext t; rw [hf' t]; rfl
  rw [hFz] at hF
  exact ⟨f', hf, hF⟩

example := C13_stein_padding (p := 2) 1000 (fun a b : ℚ => a * b + 1) true (.leaf none) (.leaf (some 2)) (.inl rfl) (.inl rfl) 2 (by norm_num) (⟨![0, 1, 3], ![1, 2, 0]⟩ : Data 3 ℚ ℚ) ![0, 7] [0, 1] [1, 0] (by decide) (by decide) (by unfold PosCount; decide +kernel)

/-- The block size changes nothing. -/
theorem C15_block_size (big : K) (k : X → X → K) (unique : Bool) (bs bs' : PyTree (Option ℤ)) (hbs : ValidBlock bs)
    (hbs' : ValidBlock bs') (size : ℕ) (pre : Data n X K) (c : Data m ℤ K) (reg : Option (SteinReg n K))
    (ord : List (Fin (m + (size - m)))) :
    steinRefine big k unique bs size pre c reg ord = steinRefine big k unique bs' size pre c reg ord := by
  rw [Greedy.steinRefine_eq, Greedy.steinRefine_eq]
  unfold greedySelection initPenalty
  simp only [C05_block_size_irrelevant big k _ _ .one bs bs' hbs hbs']

/-- Unregularised Stein thinning ignores everything about the weights except which of them are positive: only the
kernel that the user passed and the data enter. -/
theorem C15_weights_only_mask (big : K) (k : X → X → K) (unique : Bool) (bs : PyTree (Option ℤ)) (hbs : ValidBlock bs)
    (size : ℕ) (hsize : 0 < size) (pre : Data n X K) (w' : Fin n → K) (hw' : ∀ j, 0 < w' j ↔ 0 < pre.weights j)
    (reg : Option (SteinReg n K)) (ord : List (Fin (size + (size - size)))) (hord : ∀ t, t ∈ ord)
    (hpos : PosCount pre.weights size) :
    steinReduce big k unique bs size ⟨pre.data, w'⟩ reg ord = steinReduce big k unique bs size pre reg ord := by
  have hpos' : PosCount w' size := by unfold PosCount at *; simpa only [hw'] using hpos
  obtain ⟨f, hf, hrun, -⟩ := C15_reduce_greedy big k unique bs hbs size hsize pre reg ord hord hpos
  obtain ⟨f', hf', hrun', -⟩ := C15_reduce_greedy big k unique bs hbs size hsize ⟨pre.data, w'⟩ reg ord hord hpos'
  have : SteinReduce k pre.data pre.weights (regLap reg) (regLogp reg) unique f' := by
    intro i
    simpa only [hw'] using hrun' i
  rw [hf, hf', C15_reduce_determined k pre.data pre.weights _ _ unique f f' hrun this]

/-! ### Concrete cases -/

/-- The indices of a result. -/
def resultIdx' {s : ℕ} {K : Type*} : Except Err (Data s ℤ K) → Option (List ℤ)
  | .ok r => some (List.ofFn r.data)
  | .error _ => none

/-- A non-trivial regularised run on weighted data with a zero-weight row. -/
example : resultIdx' (steinReduce (n := 4) 1000 (fun a b : ℚ => a * b + 1) true (.leaf none) 3
    ⟨![-2, 1, 3, 0], ![1, 2, 1, 0]⟩ (some ⟨![1, 0, 2, 0], ![1/2, -1, 3, 5]⟩) [0, 1, 2]) = some [1, 0, 2] := by
  decide +kernel

example : PosCount (![1, 2, 1, 0] : Fin 4 → ℚ) 3 := by unfold PosCount; decide +kernel

/-- Regularised Stein thinning is *not* invariant to padding if the density estimate is: the padded rows may change
`log p`, and then other points are chosen (here the padding is ignored by the mask but `log p` moved). -/
theorem C13_stein_regularised_depends_on_density :
    resultIdx' (steinReduce (n := 3) 1000 (fun a b : ℚ => a * b) true (.leaf none) 1
      ⟨![1, 2, 3], fun _ => 1⟩ (some ⟨fun _ => 0, ![0, 0, 0]⟩) [0]) = some [0] ∧
    resultIdx' (steinReduce (n := 3) 1000 (fun a b : ℚ => a * b) true (.leaf none) 1
      ⟨![1, 2, 3], fun _ => 1⟩ (some ⟨fun _ => 0, ![0, 4, 0]⟩) [0]) = some [1] := by
  constructor <;> decide +kernel

/-- A coresubset of one row refined to two rows of positive weight; the same in blocks. -/
example (unique : Bool) := C15_refine_valid (n := 4) (m := 1) 1000 (fun a b : ℚ => a * b + 1) unique (.leaf none) (.inl rfl) 2 (by norm_num) ⟨![-2, 1, 3, 0], ![1, 2, 1, 0]⟩ ⟨![2], ![1]⟩
  (fun t => by fin_cases t; decide +kernel) (some ⟨![1, 0, 2, 0], ![1/2, -1, 3, 5]⟩) [0, 1] (by decide) (by unfold PosCount; decide +kernel)

example := C15_refine_greedy (n := 4) (m := 1) 1000 (fun a b : ℚ => a * b + 1) false (.leaf none) (.inl rfl) 2 (by norm_num) ⟨![-2, 1, 3, 0], ![1, 2, 1, 0]⟩ ⟨![2], ![1]⟩
  (fun t => by fin_cases t; decide +kernel) ⟨1, by norm_num, by decide +kernel⟩ (by simp) (some ⟨![1, 0, 2, 0], ![1/2, -1, 3, 5]⟩) [0, 1] (by decide) (by unfold PosCount; decide +kernel)

/-- The run above is the only greedy one. -/
example : ∃ f : Fin 3 → Fin 4, SteinReduce (fun a b : ℚ => a * b + 1) ![-2, 1, 3, 0] ![1, 2, 1, 0] (regLap (some ⟨![1, 0, 2, 0], ![1/2, -1, 3, 5]⟩))
      (regLogp (some ⟨![1, 0, 2, 0], ![1/2, -1, 3, 5]⟩)) true f ∧
    ∀ f', SteinReduce (fun a b : ℚ => a * b + 1) ![-2, 1, 3, 0] ![1, 2, 1, 0] (regLap (some ⟨![1, 0, 2, 0], ![1/2, -1, 3, 5]⟩))
      (regLogp (some ⟨![1, 0, 2, 0], ![1/2, -1, 3, 5]⟩)) true f' → f' = f := by
  obtain ⟨f, -, h, -⟩ := C15_reduce_greedy 1000 (fun a b : ℚ => a * b + 1) true (.leaf none) (.inl rfl) 3 (by norm_num) (⟨![-2, 1, 3, 0], ![1, 2, 1, 0]⟩ : Data 4 ℚ ℚ)
    (some ⟨![1, 0, 2, 0], ![1/2, -1, 3, 5]⟩) [0, 1, 2] (by decide) (by unfold PosCount; decide +kernel)
  exact ⟨f, h, fun f' h' => C15_reduce_determined _ _ _ _ _ _ _ _ h' h⟩

example := C15_reduce_too_large (n := 2) 1000 (fun a b : ℚ => a * b + 1) true (.leaf none) 3 (by norm_num) ⟨![-2, 1], ![1, 2]⟩ none []

example (c : Data 2 ℤ ℚ) := C15_block_size (n := 4) 1000 (fun a b : ℚ => a * b + 1) true (.leaf none) (.leaf (some 3)) (.inl rfl) (.inl rfl) 2 ⟨![-2, 1, 3, 0], ![1, 2, 1, 0]⟩ c none [0, 1]

end Coreax
