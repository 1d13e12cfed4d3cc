import Verif.Lemmas.HerdingRate
import Verif.Props.HerdingLaws

/-!
# C48: how fast kernel herding converges
-/

set_option linter.unusedSectionVars false

namespace Coreax

open Greedy Spec

variable {X K : Type*} [Zero X] [Field K] [LinearOrder K] [IsStrictOrderedRing K]
variable {n : ℕ} [NeZero n] {m : ℕ}

/-- Herding from scratch, for repeated points allowed: one positive weight is enough. -/
theorem Greedy.reduce_with_replacement (big : K) (k : X → X → K) (hk : ∀ a b, k a b = k b a)
    (bs : PyTree (Option ℤ)) (hbs : ValidBlock bs) (size : ℕ) (hsize : 0 < size) (hle : size ≤ n) (pre : Data n X K)
    (hw : ∑ j, pre.weights j ≠ 0) (hpos : ∃ j, 0 < pre.weights j) (state : Option (List K))
    (hst : ∀ l, state = some l → gramianRowMean big k pre bs = .ok l)
    (ord : List (Fin (size + (size - size)))) (hord : ∀ t, t ∈ ord) :
    ∃ f : Fin size → Fin n, herdingReduce big k none false bs size pre state ord
        = .ok (⟨fun t => (f t : ℤ), fun _ => 1⟩,
          List.ofFn fun j => Spec.avg pre.weights (fun i => k (pre.data i) (pre.data j))) ∧
      HerdingReduce k pre.data pre.weights false f := by
  have hen : Enough pre.weights false (size + (size - size)) := by
    unfold Enough; simpa using hpos
  have hrm := Greedy.rowMean_of_state big k hk pre hw bs hbs state hst
  obtain ⟨off, s, g, hrun, hinv, hoff⟩ := Greedy.run big k pre hbs false
    (herding_selects pre.weights (asVec n (List.ofFn fun j => Spec.avg pre.weights (fun i => k (pre.data i) (pre.data j)))))
    hsize (⟨fun _ => 0, fun _ => 0⟩ : Data size ℤ K) (inRange_zero size) hord hen
  refine ⟨outRows g, ?_, fun i => ?_⟩
  · unfold herdingReduce initialCoresubset
    rw [if_neg (by omega)]
    simp only
    unfold herdingRefine
    rw [hrm]
    simp only [hrun]
    rfl
  · have h1 := Greedy.run_spec (by simp) hinv i
    simp only [asVec_ofFn, hoff ⟨1, one_pos, fun _ => Or.inl rfl⟩, zero_add] at h1
    simpa [Spec.Allowed, Spec.otherSum, Spec.otherCount, Spec.IsFirstMax] using h1

/-- A finite coreset as a sequence. -/
def Rate.seq {size : ℕ} (f : Fin size → Fin n) (t : ℕ) : Fin n := if h : t < size then f ⟨t, h⟩ else 0

theorem Rate.seq_fin {size : ℕ} (f : Fin size → Fin n) (t : Fin size) : Rate.seq f t = f t := by
  unfold Rate.seq; rw [dif_pos t.2]

theorem Rate.score_of_reduce {k : X → X → K} {x : Fin n → X} {w : Fin n → K} {unique : Bool} {size : ℕ}
    {f : Fin size → Fin n} (h : HerdingReduce k x w unique f) (i : ℕ) (hi : i < size) :
    0 < w (Rate.seq f i) ∧ (unique = true → ∀ t < i, Rate.seq f t ≠ Rate.seq f i) ∧
      ∀ j, 0 < w j → (unique = true → ∀ t < i, Rate.seq f t ≠ j) →
        Rate.score k x w (Rate.seq f) i j ≤ Rate.score k x w (Rate.seq f) i (Rate.seq f i) := by
  obtain ⟨⟨h1, h2⟩, h3, -⟩ := h ⟨i, hi⟩
  have e : Rate.seq f i = f ⟨i, hi⟩ := Rate.seq_fin f ⟨i, hi⟩
  refine ⟨by rw [e]; exact h1, fun hu t ht => ?_, fun j hj hju => ?_⟩
  · rw [e, Rate.seq_fin f ⟨t, ht.trans hi⟩]
    exact h2 hu _ ht
  · have h4 := h3 j ⟨hj, fun hu t ht => by
      have := hju hu t ht
      rwa [Rate.seq_fin] at this⟩
    have hs : ∀ l, (∑ t : Fin size, if t < ⟨i, hi⟩ then k (x l) (x (f t)) else 0)
        = ∑ t ∈ Finset.range i, k (x l) (x (Rate.seq f t)) := by
      intro l
      rw [sum_castLE hi.le, Finset.sum_range]
      · refine Finset.sum_congr rfl fun t _ => ?_
        rw [if_pos (by rw [Fin.lt_def]; exact t.2), ← Rate.seq_fin f (t.castLE hi.le)]
        rfl
      · intro t ht
        rw [if_neg (by rw [Fin.lt_def]; simpa using ht)]
    beta_reduce at h4
    rw [hs, hs] at h4
    have hp : (0 : K) < (i : K) + 1 := by positivity
    have h5 := mul_le_mul_of_nonneg_left h4 hp.le
    unfold Rate.score Rate.meanAt
    rw [e]
    simp only [mul_sub, mul_div_cancel₀ _ hp.ne'] at h5
    exact h5

/-- The rate for any run of the recursion with repetition. -/
theorem Rate.run_le (k : X → X → K) (hk : ∀ a b, k a b = k b a) (x : Fin n → X) (w : Fin n → K)
    (hw0 : ∀ j, 0 ≤ w j) (hW : 0 < ∑ j, w j) (R : K) (hR : ∀ j, 0 < w j → k (x j) (x j) ≤ R) {size : ℕ}
    (hsize : 0 < size) (f : Fin size → Fin n) (h : HerdingReduce k x w false f) :
    mmdSq k x w (fun t => x (f t)) (fun _ => 1) ≤ (R - avg w fun i => avg w fun j => k (x i) (x j)) / size := by
  have hp := Rate.potential_le k hk x w hw0 hW R (Rate.seq f) size
    (fun i hi => hR _ (Rate.score_of_reduce h i hi).1)
    (fun i hi j hj => (Rate.score_of_reduce h i hi).2.2 j hj (by simp)) size le_rfl
  rw [Rate.potential_eq_mmdSq k x w hsize f _ (Rate.seq_fin f)] at hp
  have hs : (0 : K) < size := by positivity
  rw [le_div_iff₀ hs]
  have : (size : K) * ((size : K) * mmdSq k x w (fun t => x (f t)) (fun _ => 1)) ≤ size * (R - Rate.meanSq k x w) := by
    linarith [hp, sq (size : K)]
  have := le_of_mul_le_mul_left this hs
  rw [mul_comm]
  exact this

/-- The rate for any run without repetition on equally weighted points. -/
theorem Rate.run_unique_le (k : X → X → K) (hk : ∀ a b, k a b = k b a) (x : Fin n → X)
    (hpsd : ∀ c : Fin n → K, 0 ≤ ∑ i, ∑ j, c i * c j * k (x i) (x j)) (w : Fin n → K) (hu : UniformWeights w)
    (R : K) (hR : ∀ j, 0 < w j → k (x j) (x j) ≤ R) {size : ℕ}
    (hsize : 0 < size) (f : Fin size → Fin n) (h : HerdingReduce k x w true f) :
    mmdSq k x w (fun t => x (f t)) (fun _ => 1) ≤ (R - (avg w fun i => avg w fun j => k (x i) (x j)) / 2) / size := by
  obtain ⟨u, hu0, hu⟩ := hu
  have hp := Rate.potential_le_unique k hk x hpsd w u hu0 hu R (Rate.seq f) size
    (fun i hi => hR _ (Rate.score_of_reduce h i hi).1) (fun i hi => (Rate.score_of_reduce h i hi).1)
    (fun i hi => (Rate.score_of_reduce h i hi).2.1 rfl)
    (fun i hi j hj hju => (Rate.score_of_reduce h i hi).2.2 j hj fun _ => hju) size le_rfl
  rw [Rate.potential_eq_mmdSq k x w hsize f _ (Rate.seq_fin f)] at hp
  have hs : (0 : K) < size := by positivity
  rw [le_div_iff₀ hs]
  have : (size : K) * ((size : K) * mmdSq k x w (fun t => x (f t)) (fun _ => 1)) ≤ size * (R - Rate.meanSq k x w / 2) := by
    linarith [hp, sq (size : K)]
  have := le_of_mul_le_mul_left this hs
  rw [mul_comm]
  exact this

/-- With `unique=False`, for any symmetric kernel and non-negative weights, the squared MMD between the data and the herding coreset is at
most `(max k(x, x) - ‖μ‖²) / size`, for every size. -/
theorem C48_herding_rate (big : K) (k : X → X → K) (hk : ∀ a b, k a b = k b a)
    (bs : PyTree (Option ℤ)) (hbs : ValidBlock bs) (size : ℕ) (hsize : 0 < size) (hle : size ≤ n) (pre : Data n X K)
    (hw0 : ∀ j, 0 ≤ pre.weights j) (hpos : ∃ j, 0 < pre.weights j) (state : Option (List K))
    (hst : ∀ l, state = some l → gramianRowMean big k pre bs = .ok l)
    (ord : List (Fin (size + (size - size)))) (hord : ∀ t, t ∈ ord)
    (R : K) (hR : ∀ j, 0 < pre.weights j → k (pre.data j) (pre.data j) ≤ R) :
    ∃ f : Fin size → Fin n, ∃ st, herdingReduce big k none false bs size pre state ord
        = .ok (⟨fun t => (f t : ℤ), fun _ => 1⟩, st) ∧
      mmdSq k pre.data pre.weights (fun t => pre.data (f t)) (fun _ => 1)
        ≤ (R - avg pre.weights fun i => avg pre.weights fun j => k (pre.data i) (pre.data j)) / size := by
  have hW : 0 < ∑ j, pre.weights j := by
    obtain ⟨j, hj⟩ := hpos
    exact Finset.sum_pos' (fun i _ => hw0 i) ⟨j, Finset.mem_univ _, hj⟩
  obtain ⟨f, h1, h2⟩ := Greedy.reduce_with_replacement big k hk bs hbs size hsize hle pre hW.ne' hpos state hst ord hord
  exact ⟨f, _, h1, Rate.run_le k hk pre.data pre.weights hw0 hW R hR hsize f h2⟩

example := C48_herding_rate 1000 (fun a b : ℚ => if a = b then (1 : ℚ) else 0) (fun a b => by simp only [eq_comm]) (.leaf none) (.inl rfl) 2 (by norm_num) (by norm_num) (⟨![0, 1, 3], ![1, 2, 0]⟩ : Data 3 ℚ ℚ) (by decide +kernel) (by decide +kernel) none (by simp) [0, 1] (by decide) 1 (fun _ _ => by simp)

/-- With `unique=True` (the default), for a positive semi-definite kernel and equally weighted points (zero-weight rows allowed), the
squared MMD is at most `(max k(x, x) - ‖μ‖² / 2) / size`. -/
theorem C48_herding_rate_unique (big : K) (k : X → X → K) (hk : ∀ a b, k a b = k b a)
    (bs : PyTree (Option ℤ)) (hbs : ValidBlock bs) (size : ℕ) (hsize : 0 < size) (pre : Data n X K)
    (hpsd : ∀ c : Fin n → K, 0 ≤ ∑ i, ∑ j, c i * c j * k (pre.data i) (pre.data j))
    (hu : UniformWeights pre.weights) (hpos : PosCount pre.weights size) (state : Option (List K))
    (hst : ∀ l, state = some l → gramianRowMean big k pre bs = .ok l)
    (ord : List (Fin (size + (size - size)))) (hord : ∀ t, t ∈ ord)
    (R : K) (hR : ∀ j, 0 < pre.weights j → k (pre.data j) (pre.data j) ≤ R) :
    ∃ f : Fin size → Fin n, ∃ st, herdingReduce big k none true bs size pre state ord
        = .ok (⟨fun t => (f t : ℤ), fun _ => 1⟩, st) ∧
      mmdSq k pre.data pre.weights (fun t => pre.data (f t)) (fun _ => 1)
        ≤ (R - (avg pre.weights fun i => avg pre.weights fun j => k (pre.data i) (pre.data j)) / 2) / size := by
  have hW : 0 < ∑ j, pre.weights j := by
    obtain ⟨j, hj⟩ := Finset.card_pos.1 (lt_of_lt_of_le hsize hpos)
    obtain ⟨u, hu0, hu⟩ := hu
    refine Finset.sum_pos' (fun i _ => ?_) ⟨j, Finset.mem_univ _, (Finset.mem_filter.1 hj).2⟩
    rcases hu i with h | h <;> rw [h]
    exact hu0.le
  obtain ⟨f, h1, h2⟩ := C12_reduce_greedy big k hk true bs hbs size hsize pre hW.ne' state hst ord hord hpos
  exact ⟨f, _, h1, Rate.run_unique_le k hk pre.data hpsd pre.weights hu R hR hsize f h2⟩

example := C48_herding_rate_unique 1000 (fun a b : ℚ => if a = b then (1 : ℚ) else 0) (fun a b => by simp only [eq_comm]) (.leaf none) (.inl rfl) 2 (by norm_num) (⟨![0, 1, 3], ![2, 2, 2]⟩ : Data 3 ℚ ℚ) (fun c => by simp [Fin.sum_univ_three]; nlinarith [mul_self_nonneg (c 0), mul_self_nonneg (c 1), mul_self_nonneg (c 2)]) ⟨2, by norm_num, by decide +kernel⟩ (by unfold PosCount; decide +kernel) none (by simp) [0, 1] (by decide) 1 (fun _ _ => by simp)

/-- Iterated refinement keeps these rates, for kernels that are constant on the diagonal. -/
theorem C48_iterative_rate (big : K) (k : X → X → K) (hk : ∀ a b, k a b = k b a) (unique : Bool)
    (bs : PyTree (Option ℤ)) (hbs : ValidBlock bs) (size : ℕ) (hsize : 0 < size) (pre : Data n X K)
    (R : K) (hR : ∀ j, k (pre.data j) (pre.data j) = R)
    (hpsd : ∀ c : Fin n → K, 0 ≤ ∑ i, ∑ j, c i * c j * k (pre.data i) (pre.data j))
    (hw0 : ∀ j, 0 ≤ pre.weights j) (hu : unique = true → UniformWeights pre.weights)
    (ord : List (Fin (size + (size - size)))) (hord : ∀ t, t ∈ ord) (hpos : PosCount pre.weights size) (N : ℕ) :
    ∃ f : Fin size → Fin n, ∃ st,
      herdingReduceIterative big k (fun _ => none) unique bs size pre none ord (N + 1)
        = .ok (⟨fun t => (f t : ℤ), fun _ => 1⟩, st) ∧
      mmdSq k pre.data pre.weights (fun t => pre.data (f t)) (fun _ => 1)
        ≤ (R - (avg pre.weights fun i => avg pre.weights fun j => k (pre.data i) (pre.data j)) / 2) / size := by
  have hW : 0 < ∑ j, pre.weights j := by
    obtain ⟨j, hj⟩ := Finset.card_pos.1 (lt_of_lt_of_le hsize hpos)
    exact Finset.sum_pos' (fun i _ => hw0 i) ⟨j, Finset.mem_univ _, (Finset.mem_filter.1 hj).2⟩
  obtain ⟨f, st, hf⟩ := C41_iterative_descent big k hk unique bs hbs size hsize pre (fun i j => by rw [hR, hR]) hW.ne' ord hord hpos
  refine ⟨f N, st, (hf N).1, ?_⟩
  have hall : ∀ N, mmdSq k pre.data pre.weights (fun t => pre.data (f N t)) (fun _ => 1)
      ≤ mmdSq k pre.data pre.weights (fun t => pre.data (f 0 t)) (fun _ => 1) := by
    intro N
    induction N with
    | zero => exact le_rfl
    | succ N ih => exact (hf N).2.2.2.trans ih
  refine (hall N).trans ?_
  obtain ⟨f', h1, h2⟩ := C12_reduce_greedy big k hk unique bs hbs size hsize pre hW.ne' none (by simp) ord hord hpos
  have he := (hf 0).1
  rw [C14_iterative_one big k _ unique bs hbs, h1] at he
  injection he with he
  injection he with he _
  injection he with he _
  have : f' = f 0 := by
    funext t
    exact Fin.ext (by exact_mod_cast congrFun he t)
  rw [← this]
  have hs : (0 : K) < size := by positivity
  cases unique with
  | true => exact Rate.run_unique_le k hk pre.data hpsd pre.weights (hu rfl) R (fun j _ => (hR j).le) hsize f' h2
  | false =>
    refine (Rate.run_le k hk pre.data pre.weights hw0 hW R (fun j _ => (hR j).le) hsize f' h2).trans ?_
    have hM : 0 ≤ Rate.meanSq k pre.data pre.weights := by
      have h0 := hpsd (fun j => 1 * (pre.weights j / ∑ l, pre.weights l) - ∑ t ∈ Finset.range 0, if (fun _ => (0 : Fin n)) t = j then 1 else 0)
      have := Rate.quad_form k hk pre.data pre.weights (fun _ => 0) 0 1
      simp only at this
      rw [this] at h0
      simpa [Rate.sumMean, Rate.sumPair] using h0
    have hM' : 0 ≤ avg pre.weights fun i => avg pre.weights fun j => k (pre.data i) (pre.data j) := hM
    gcongr
    linarith

example := C48_iterative_rate 1000 (fun a b : ℚ => if a = b then (1 : ℚ) else 0) (fun a b => by simp only [eq_comm]) true (.leaf none) (.inl rfl) 2 (by norm_num) (⟨![0, 1, 3], ![2, 2, 2]⟩ : Data 3 ℚ ℚ) 1 (fun _ => by simp) (fun c => by simp [Fin.sum_univ_three]; nlinarith [mul_self_nonneg (c 0), mul_self_nonneg (c 1), mul_self_nonneg (c 2)]) (by decide +kernel) (fun _ => ⟨2, by norm_num, by decide +kernel⟩) [0, 1] (by decide) (by unfold PosCount; decide +kernel) 4

end Coreax
