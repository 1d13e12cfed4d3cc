import Verif.Props.Extremes
import Verif.Props.Duality

/-!
# C97: Sums of kernels, constants, and joint discrepancies
-/

set_option linter.unusedSectionVars false

namespace Coreax

open Spec Finset

namespace KernelSums

section
variable {K : Type*} [Field K] [LinearOrder K] [IsStrictOrderedRing K]

theorem avg_add {n : ℕ} (w f g : Fin n → K) : avg w (fun i => f i + g i) = avg w f + avg w g := by
  unfold Spec.avg
  rw [← add_div, ← sum_add_distrib]
  simp only [mul_add]

theorem avg_const {n : ℕ} {w : Fin n → K} (hw : ∑ i, w i ≠ 0) (c : K) : avg w (fun _ => c) = c := by
  unfold Spec.avg
  rw [← sum_mul, mul_div_cancel_left₀ _ hw]

theorem mmdSq_add {X : Type*} (k l : X → X → K) {n m : ℕ} (x : Fin n → X) (w : Fin n → K) (y : Fin m → X) (v : Fin m → K) :
    mmdSq (fun a b => k a b + l a b) x w y v = mmdSq k x w y v + mmdSq l x w y v := by
  simp only [mmdSq, avg_add]
  ring

theorem mmdSq_const {X : Type*} (c : K) {n m : ℕ} (x : Fin n → X) {w : Fin n → K} (y : Fin m → X) {v : Fin m → K} (hw : ∑ i, w i ≠ 0) (hv : ∑ i, v i ≠ 0) :
    mmdSq (fun _ _ => c) x w y v = 0 := by
  simp only [mmdSq, avg_const hw, avg_const hv]
  ring

/-- On the simplex a constant does not change the distance. -/
theorem distSq_const {X : Type*} (k : X → X → K) (c : K) {n m : ℕ} (x : Fin n → X) {w : Fin n → K} (y : Fin m → X) {v : Fin m → K} (hw : ∑ i, w i = 1) (hv : ∑ i, v i = 1) :
    distSq (fun a b => k a b + c) x w y v = distSq k x w y v := by
  have h : ∀ {p q : ℕ} (a : Fin p → K) (b : Fin q → K) (κ : Fin p → Fin q → K), ∑ i, a i = 1 → ∑ i, b i = 1 → ∑ i, ∑ j, a i * b j * (κ i j + c) = ∑ i, ∑ j, a i * b j * κ i j + c := by
    intro p q a b κ ha hb
    have e : ∑ i, ∑ j, a i * b j * c = c := by
      rw [show ∑ i, ∑ j, a i * b j * c = (∑ i, a i) * (∑ j, b j) * c by rw [sum_mul_sum, sum_mul]; exact sum_congr rfl fun i _ => by rw [sum_mul], ha, hb]
      ring
    simp only [mul_add, sum_add_distrib, e]
  unfold distSq
  rw [h w w (fun i j => k (x i) (x j)) hw hw, h w v (fun i j => k (x i) (y j)) hw hv, h v v (fun i j => k (y i) (y j)) hv hv]
  ring

end

end KernelSums

open KernelSums

section
variable {n m : ℕ}

/-- **C97.** The squared discrepancy of a sum of kernels is the sum of the squared discrepancies, and a constant added to a
kernel does not change the discrepancy; for all kernels that can be built in the library. -/
theorem C97_mmd {d : ℕ} (big : ℝ) (A B : KExpr d) (hA : A.check = .ok ()) (hA' : A.PsdDomain) (hB : B.check = .ok ()) (hB' : B.PsdDomain) (hn : 0 < n) (hm : 0 < m) (x : Data n (Vec d) ℝ) (y : Data m (Vec d) ℝ)
    (hx : ∑ i, x.weights i ≠ 0) (hy : ∑ i, y.weights i ≠ 0) (bs : PyTree (Option ℤ)) (hbs : ValidBlock bs) :
    ∃ r s t, mmdCompute big A.sem.compute x y bs = .ok r ∧ mmdCompute big B.sem.compute x y bs = .ok s ∧
      mmdCompute big (KExpr.add A B).sem.compute x y bs = .ok t ∧ t ^ 2 = r ^ 2 + s ^ 2 ∧ r ≤ t ∧ s ≤ t ∧ t ≤ r + s ∧
      ∀ v : PyNum, 0 ≤ v.toReal → ∃ C, A.addOp (.num v) = .ok C ∧ mmdCompute big C.sem.compute x y bs = .ok r := by
  have pA := C08_psd A hA hA'
  have pB := C08_psd B hB hB'
  have nA := (C07_rkhs_distance big _ pA hn hm x y hx hy bs hbs).1
  have nB := (C07_rkhs_distance big _ pB hn hm x y hx hy bs hbs).1
  have e : mmdSq (KExpr.add A B).sem.compute x.data x.weights y.data y.weights = mmdSq A.sem.compute x.data x.weights y.data y.weights + mmdSq B.sem.compute x.data x.weights y.data y.weights :=
    mmdSq_add A.sem.compute B.sem.compute _ _ _ _
  have h2 : Real.sqrt (max 0 (mmdSq (KExpr.add A B).sem.compute x.data x.weights y.data y.weights)) ^ 2 = Real.sqrt (max 0 (mmdSq A.sem.compute x.data x.weights y.data y.weights)) ^ 2 + Real.sqrt (max 0 (mmdSq B.sem.compute x.data x.weights y.data y.weights)) ^ 2 := by
    rw [e, max_eq_right nA, max_eq_right nB, max_eq_right (add_nonneg nA nB), Real.sq_sqrt nA, Real.sq_sqrt nB, Real.sq_sqrt (add_nonneg nA nB)]
  refine ⟨_, _, _, C07_compute big _ hn hm x y hx hy bs hbs, C07_compute big _ hn hm x y hx hy bs hbs, C07_compute big _ hn hm x y hx hy bs hbs, h2, ?_, ?_, ?_, fun v hv => ?_⟩
  · exact Real.sqrt_le_sqrt (max_le_max le_rfl (by rw [e]; linarith))
  · exact Real.sqrt_le_sqrt (max_le_max le_rfl (by rw [e]; linarith))
  · refine abs_le_of_sq_le_sq' ?_ (by positivity) |>.2
    rw [h2]
    nlinarith [mul_nonneg (Real.sqrt_nonneg (max 0 (mmdSq A.sem.compute x.data x.weights y.data y.weights))) (Real.sqrt_nonneg (max 0 (mmdSq B.sem.compute x.data x.weights y.data y.weights)))]
  · refine ⟨.add A (.const v.toReal), by simp [KExpr.addOp, checkNonneg, not_lt.2 hv], ?_⟩
    rw [C07_compute big _ hn hm x y hx hy bs hbs]
    have e' : mmdSq (KExpr.add A (.const v.toReal)).sem.compute x.data x.weights y.data y.weights = mmdSq A.sem.compute x.data x.weights y.data y.weights + mmdSq (fun _ _ => v.toReal) x.data x.weights y.data y.weights :=
      mmdSq_add A.sem.compute (fun _ _ => v.toReal) _ _ _ _
    rw [e', mmdSq_const _ _ _ hx hy, add_zero]

example := C97_mmd 1000 (.linear 1 0 : KExpr 1) (.squaredExponential 2 1) (by simp [KExpr.check, checkNonneg, checkPos, not_le.2 one_pos]; rfl) trivial (SteinStrict.check_squaredExponential two_pos one_pos) trivial (by norm_num) (by norm_num)
  (⟨![![0], ![1]], ![1, 2]⟩ : Data 2 (Vec 1) ℝ) (⟨![![5]], ![1]⟩ : Data 1 (Vec 1) ℝ) (by norm_num [Fin.sum_univ_two]) (by norm_num) (.leaf none) (.inl rfl)

end

/-! ### Constants and the solvers -/

section
variable {K : Type*} [Field K] [LinearOrder K] [IsStrictOrderedRing K] {X Y : Type*} [Zero X] {n : ℕ} [NeZero n]

theorem KernelSums.firstMax_shift {allowed : Fin n → Prop} {s s' : Fin n → K} {c : K} (h : ∀ j, s' j = s j + c) {j : Fin n} (hj : IsFirstMax allowed s j) : IsFirstMax allowed s' j :=
  ⟨hj.1, fun l hl => by rw [h, h]; linarith [hj.2.1 l hl], fun l hl hl' => by rw [h, h]; linarith [hj.2.2 l hl hl']⟩

/-- Kernel herding returns the same coreset if a constant is added to the kernel. -/
theorem C97_herding (big : K) (k : X → X → K) (hk : ∀ a b, k a b = k b a) (c : K) (unique : Bool) (bs : PyTree (Option ℤ)) (hbs : ValidBlock bs) (size : ℕ) (hsize : 0 < size) (pre : Data n X K)
    (hw : ∑ j, pre.weights j ≠ 0) (hpos : PosCount pre.weights size) (ord : List (Fin (size + (size - size)))) (hord : ∀ t, t ∈ ord) :
    ∃ (f : Fin size → Fin n) (st st' : List K), herdingReduce big k none unique bs size pre none ord = .ok (⟨fun t => (f t : ℤ), fun _ => 1⟩, st) ∧
      herdingReduce big (fun a b => k a b + c) none unique bs size pre none ord = .ok (⟨fun t => (f t : ℤ), fun _ => 1⟩, st') := by
  obtain ⟨f, h1, h2⟩ := C12_reduce_greedy big k hk unique bs hbs size hsize pre hw none (by simp) ord hord hpos
  obtain ⟨f', h3, h4⟩ := C12_reduce_greedy big (fun a b => k a b + c) (fun a b => by rw [hk]) unique bs hbs size hsize pre hw none (by simp) ord hord hpos
  have h5 : HerdingReduce (fun a b => k a b + c) pre.data pre.weights unique f := fun i => by
    refine firstMax_shift (c := c - (∑ t : Fin size, if t < i then c else 0) / ((i : ℕ) + 1 : K)) (fun j => ?_) (h2 i)
    have e : (∑ t, if t < i then k (pre.data j) (pre.data (f t)) + c else 0) = (∑ t, if t < i then k (pre.data j) (pre.data (f t)) else 0) + ∑ t : Fin size, if t < i then c else 0 := by
      rw [← sum_add_distrib]
      exact sum_congr rfl fun t _ => by split_ifs <;> simp
    rw [e, avg_add, avg_const hw]
    ring
  rw [C12_reduce_determined _ _ _ _ f' f h4 h5] at h3
  exact ⟨f, _, _, h1, h3⟩

example := C97_herding 1000 (fun a b : ℚ => a * b) (fun a b => by ring) 7 true (.leaf none) (.inl rfl) 2 (by norm_num) (⟨![0, 1, 3], ![1, 2, 0]⟩ : Data 3 ℚ ℚ) (by decide +kernel) (by unfold PosCount; decide +kernel) [0, 1] (by decide)

/-- So does Stein thinning, with or without regularisation. -/
theorem C97_stein (big : K) (k : X → X → K) (c : K) (unique : Bool) (bs : PyTree (Option ℤ)) (hbs : ValidBlock bs) (size : ℕ) (hsize : 0 < size) (pre : Data n X K) (reg : Option (SteinReg n K))
    (hpos : PosCount pre.weights size) (ord : List (Fin (size + (size - size)))) (hord : ∀ t, t ∈ ord) :
    steinReduce big (fun a b => k a b + c) unique bs size pre reg ord = steinReduce big k unique bs size pre reg ord := by
  obtain ⟨f, h1, h2, -⟩ := C15_reduce_greedy big k unique bs hbs size hsize pre reg ord hord hpos
  obtain ⟨f', h3, h4, -⟩ := C15_reduce_greedy big (fun a b => k a b + c) unique bs hbs size hsize pre reg ord hord hpos
  have h5 : SteinReduce (fun a b => k a b + c) pre.data pre.weights (regLap reg) (regLogp reg) unique f := fun i => by
    refine ⟨(h2 i).1, fun j hj => ?_⟩
    have e : ∀ j, (∑ t, if t < i then k (pre.data j) (pre.data (f t)) + c else 0) = (∑ t, if t < i then k (pre.data j) (pre.data (f t)) else 0) + ∑ t : Fin size, if t < i then c else 0 := fun j => by
      rw [← sum_add_distrib]
      exact sum_congr rfl fun t _ => by split_ifs <;> simp
    obtain ⟨a1, a2⟩ := (h2 i).2 j hj
    simp only [e]
    exact ⟨by linarith, fun h => by have := a2 h; linarith⟩
  rw [h3, h1, C15_reduce_determined _ _ _ _ _ _ f' f h4 h5]

example := C97_stein 1000 (fun a b : ℚ => a * b) 7 true (.leaf none) (.inl rfl) 2 (by norm_num) (⟨![0, 1, 3], ![1, 2, 0]⟩ : Data 3 ℚ ℚ) none (by unfold PosCount; decide +kernel) [0, 1] (by decide)

/-- With a positive regularisation the weights on the simplex are unique. -/
theorem KernelSums.unique_weights (k : X → X → K) {N m : ℕ} (x : Fin N → X) (w : Fin N → K) (y : Fin m → X) (hpsd : ∀ v : Fin m → K, 0 ≤ ∑ i, ∑ j, v i * v j * k (y i) (y j)) {eps : K} (heps : 0 < eps) {v v' : Fin m → K}
    (hv : OnSimplex v) (hv' : OnSimplex v') (h : ∀ u, OnSimplex u → distSq k x w y v + eps * ∑ i, v i ^ 2 ≤ distSq k x w y u + eps * ∑ i, u i ^ 2)
    (h' : ∀ u, OnSimplex u → distSq k x w y v' + eps * ∑ i, v' i ^ 2 ≤ distSq k x w y u + eps * ∑ i, u i ^ 2) : v = v' := by
  have hmid : OnSimplex fun i => (v i + v' i) / 2 := ⟨fun i => by have := hv.1 i; have := hv'.1 i; positivity, by rw [← sum_div, sum_add_distrib, hv.2, hv'.2]; norm_num⟩
  have h1 := h _ hmid
  have h2 := h' _ hmid
  have q := hpsd fun i => v i - v' i
  have e1 : ∑ i, ∑ j, (v i - v' i) * (v j - v' j) * k (y i) (y j) = 2 * ∑ i, ∑ j, v i * v j * k (y i) (y j) + 2 * ∑ i, ∑ j, v' i * v' j * k (y i) (y j) - 4 * ∑ i, ∑ j, (v i + v' i) / 2 * ((v j + v' j) / 2) * k (y i) (y j) := by
    simp only [mul_sum, ← sum_add_distrib, ← sum_sub_distrib]
    exact sum_congr rfl fun i _ => sum_congr rfl fun j _ => by ring
  have e2 : ∑ i, ∑ j, w i * ((v j + v' j) / 2) * k (x i) (y j) = (∑ i, ∑ j, w i * v j * k (x i) (y j) + ∑ i, ∑ j, w i * v' j * k (x i) (y j)) / 2 := by
    simp only [← sum_add_distrib, sum_div]
    exact sum_congr rfl fun i _ => sum_congr rfl fun j _ => by ring
  have e3 : ∑ i, (v i - v' i) ^ 2 = 2 * ∑ i, v i ^ 2 + 2 * ∑ i, v' i ^ 2 - 4 * ∑ i, ((v i + v' i) / 2) ^ 2 := by
    simp only [mul_sum, ← sum_add_distrib, ← sum_sub_distrib]
    exact sum_congr rfl fun i _ => by ring
  have h3 : eps * ∑ i, (v i - v' i) ^ 2 ≤ 0 := by
    unfold distSq at h1 h2
    rw [e2] at h1 h2
    rw [e1] at q
    rw [e3]
    nlinarith
  have h4 : ∑ i, (v i - v' i) ^ 2 = 0 := le_antisymm (by by_contra hcon; push Not at hcon; have := mul_pos heps hcon; linarith) (sum_nonneg fun i _ => sq_nonneg _)
  funext i
  exact sub_eq_zero.1 (pow_eq_zero_iff two_ne_zero |>.1 ((sum_eq_zero_iff_of_nonneg fun i _ => sq_nonneg (v i - v' i)).1 h4 i (mem_univ i)))

/-- The weights on the simplex (with a positive regularisation) are the same for a kernel and the kernel plus a constant. -/
theorem C97_mmd_weights (qp : SimplexQP K) (hqp : QPContract qp) (big : K) (k : X → X → K) (hk : ∀ a b, k a b = k b a) {c : K} (hc : 0 ≤ c) {n m : ℕ}
    (hn : 0 < n) (hm : 0 < m) (dataset : DSet n X Y K) (coreset : DSet m X Y K) (h1 : dataset.sup = none) (h2 : coreset.sup = none) (eps : K) (heps : 0 < eps)
    (hpsd : ∀ v : Fin m → K, 0 ≤ ∑ i, ∑ j, v i * v j * k (coreset.data i) (coreset.data j)) (bs : PyTree (Option ℤ)) (hbs : ValidBlock bs) :
    ∃ v : Fin m → K, mmdWeightsSolve qp big k dataset coreset eps bs = .ok (fun i => .fin (v i)) ∧ mmdWeightsSolve qp big (fun a b => k a b + c) dataset coreset eps bs = .ok (fun i => .fin (v i)) := by
  have hn' : (0 : K) < n := by exact_mod_cast hn
  obtain ⟨v, h3, h4, h5⟩ := C29_optimal qp hqp big k hk hn hm dataset coreset h1 h2 eps heps.le hpsd bs hbs
  have hpsd' : ∀ v : Fin m → K, 0 ≤ ∑ i, ∑ j, v i * v j * (k (coreset.data i) (coreset.data j) + c) := fun v => by
    have e : ∑ i, ∑ j, v i * v j * c = c * (∑ i, v i) ^ 2 := by
      rw [sq, sum_mul_sum, mul_sum]
      exact sum_congr rfl fun i _ => by rw [mul_sum]; exact sum_congr rfl fun j _ => by ring
    simp only [mul_add, sum_add_distrib, e]
    exact add_nonneg (hpsd v) (mul_nonneg hc (sq_nonneg _))
  obtain ⟨v', h3', h4', h5'⟩ := C29_optimal qp hqp big (fun a b => k a b + c) (fun a b => by rw [hk]) hn hm dataset coreset h1 h2 eps heps.le hpsd' bs hbs
  have hone : ∑ _i : Fin n, 1 / (n : K) = 1 := by simp [hn'.ne']
  have : v = v' := KernelSums.unique_weights k dataset.data (fun _ => 1 / (n : K)) coreset.data hpsd heps h4 h4' h5 fun u hu => by
    have := h5' u hu
    rwa [distSq_const k c _ _ hone h4'.2, distSq_const k c _ _ hone hu.2] at this
  rw [this] at h3
  exact ⟨v', h3, h3'⟩

example (qp : SimplexQP ℚ) (hqp : QPContract qp) := C97_mmd_weights (Y := Unit) qp hqp 1000 (fun a b : ℚ => a * b) (fun a b => by ring) (c := 7) (by norm_num) (n := 3) (m := 2) (by norm_num) (by norm_num)
  ⟨⟨![0, 1, 3], ![1, 2, 0]⟩, none⟩ ⟨⟨![1, 3], ![1, 1]⟩, none⟩ rfl rfl (1 / 10) (by norm_num) (fun v => by
    simp only [Fin.sum_univ_two, Matrix.cons_val_zero, Matrix.cons_val_one]
    nlinarith [sq_nonneg (v 0 + 3 * v 1)]) (.leaf none) (.inl rfl)

end

/-- But not the weights of sequential Bayesian quadrature, nor the kernel Stein discrepancy: its square grows by the
constant. -/
theorem C97_not_sbq (solve : LinSolve ℝ) (hsolve : SolveContract solve) (big : ℝ) : ∃ (dataset : DSet 2 ℝ Unit ℝ) (coreset : DSet 1 ℝ Unit ℝ), dataset.sup = none ∧ coreset.sup = none ∧
    sbqSolve solve big (fun a b => a * b) dataset coreset 0 (.leaf none) = .ok (fun _ => 2) ∧
    sbqSolve solve big (fun a b => a * b + 1) dataset coreset 0 (.leaf none) = .ok (fun _ => 3 / 2) := by
  refine ⟨⟨⟨![1, 3], fun _ => 1⟩, none⟩, ⟨⟨![1], fun _ => 1⟩, none⟩, rfl, rfl, ?_, ?_⟩
  · obtain ⟨v, h1, h2⟩ := C30_optimal solve hsolve big (fun a b : ℝ => a * b) (fun a b => by ring) two_pos one_pos (⟨⟨![1, 3], fun _ => 1⟩, none⟩ : DSet 2 ℝ Unit ℝ) ⟨⟨![1], fun _ => 1⟩, none⟩ rfl rfl 0 (.leaf none) (.inl rfl)
      (fun v ⟨i, hi⟩ => by rw [Subsingleton.elim i 0] at hi; have := sq_pos_of_ne_zero hi; simp; nlinarith)
    rw [h1]
    congr 1
    by_contra hne
    have h3 := h2 (fun _ => 2) (Ne.symm hne)
    simp [distSq, Fin.sum_univ_two] at h3
    nlinarith [sq_nonneg (v 0 - 2)]
  · obtain ⟨v, h1, h2⟩ := C30_optimal solve hsolve big (fun a b : ℝ => a * b + 1) (fun a b => by ring) two_pos one_pos (⟨⟨![1, 3], fun _ => 1⟩, none⟩ : DSet 2 ℝ Unit ℝ) ⟨⟨![1], fun _ => 1⟩, none⟩ rfl rfl 0 (.leaf none) (.inl rfl)
      (fun v ⟨i, hi⟩ => by rw [Subsingleton.elim i 0] at hi; have := sq_pos_of_ne_zero hi; simp; nlinarith)
    rw [h1]
    congr 1
    by_contra hne
    have h3 := h2 (fun _ => 3 / 2) (Ne.symm hne)
    simp [distSq, Fin.sum_univ_two] at h3
    nlinarith [sq_nonneg (v 0 - 3 / 2)]

theorem C97_not_ksd {X : Type} [Zero X] (big : ℝ) (kp : X → X → ℝ) (hk : IsPSD kp) {c : ℝ} (hc : 0 ≤ c) {m : ℕ} (hm : 0 < m) (y : Data m X ℝ) (hy : ∑ i, y.weights i ≠ 0)
    (bs : PyTree (Option ℤ)) (hbs : ValidBlock bs) :
    ∃ r s, ksdCompute big kp y bs none none = .ok r ∧ ksdCompute big (fun a b => kp a b + c) y bs none none = .ok s ∧ s ^ 2 = r ^ 2 + c := by
  refine ⟨_, _, C35_ksd_value big kp hm y hy bs hbs none none, C35_ksd_value big _ hm y hy bs hbs none none, ?_⟩
  have h0 : 0 ≤ avg y.weights fun i => avg y.weights fun j => kp (y.data i) (y.data j) := by
    have h := hk.2 m y.data y.weights
    have e : (avg y.weights fun i => avg y.weights fun j => kp (y.data i) (y.data j)) = (∑ i, ∑ j, y.weights i * y.weights j * kp (y.data i) (y.data j)) / (∑ i, y.weights i) ^ 2 := by
      unfold Spec.avg
      rw [show ∑ i, y.weights i * ((∑ j, y.weights j * kp (y.data i) (y.data j)) / ∑ j, y.weights j) = (∑ i, ∑ j, y.weights i * y.weights j * kp (y.data i) (y.data j)) / ∑ j, y.weights j by
        rw [sum_div (Finset.univ : Finset (Fin m)) (fun i => ∑ j, y.weights i * y.weights j * kp (y.data i) (y.data j))]
        refine sum_congr rfl fun i _ => ?_
        rw [← mul_div_assoc, mul_sum]
        simp only [mul_assoc], div_div, sq]
    rw [e]
    positivity
  simp only [avg_add, avg_const hy, add_zero, sub_zero]
  rw [max_eq_right h0, max_eq_right (add_nonneg h0 hc), Real.sq_sqrt h0, Real.sq_sqrt (add_nonneg h0 hc)]

example := C97_not_ksd 1000 (fun a b : ℝ => a * b) (isPSD_rankOne fun x : ℝ => x) (c := 2) (by norm_num) (by norm_num) (⟨![1, 3], ![1, 2]⟩ : Data 2 ℝ ℝ) (by norm_num [Fin.sum_univ_two]) (.leaf none) (.inl rfl)

/-! ### Joint discrepancies -/

section
variable {X Y : Type} [Zero X] [Zero Y] {n m : ℕ}

/-- `jmmdCompute` as a discrepancy of the pairs. -/
theorem KernelSums.jmmd_eq (big : ℝ) (k : X → X → ℝ) (r : Y → Y → ℝ) (hn : 0 < n) (hm : 0 < m) (p : SupData n X Y ℝ) (q : SupData m X Y ℝ) (hp : ∑ i, p.weights i ≠ 0) (hq : ∑ i, q.weights i ≠ 0) :
    jmmdCompute big k r p q = Real.sqrt (max 0 (mmdSq (tensorKernel k r) (pairs p).data p.weights (pairs q).data q.weights)) := by
  have h := C07_compute big (tensorKernel k r) hn hm (pairs p) (pairs q) hp hq (.leaf none) (.inl rfl)
  rw [C33_compute big k r hn hm p q (.leaf none) (.inl rfl)] at h
  injection h

/-- A constant added to the kernel of the responses adds the discrepancy of the features alone, so that a response kernel
`r + c` also compares the marginals of the features; with the constant kernel 1 the joint discrepancy is the discrepancy of
the features. -/
theorem C97_joint_offset (big : ℝ) (k : X → X → ℝ) (r : Y → Y → ℝ) (hk : IsPSD k) (hr : IsPSD r) {c : ℝ} (hc : 0 ≤ c) (hn : 0 < n) (hm : 0 < m) (p : SupData n X Y ℝ) (q : SupData m X Y ℝ) (hp : ∑ i, p.weights i ≠ 0) (hq : ∑ i, q.weights i ≠ 0)
    (bs : PyTree (Option ℤ)) (hbs : ValidBlock bs) :
    ∃ s, mmdCompute big k p.toData q.toData bs = .ok s ∧
      jmmdCompute big k (fun a b => r a b + c) p q ^ 2 = jmmdCompute big k r p q ^ 2 + c * s ^ 2 ∧
      Real.sqrt c * s ≤ jmmdCompute big k (fun a b => r a b + c) p q ∧
      jmmdCompute big k (fun _ _ => 1) p q = s := by
  have pt := C33_tensor_psd k r hk hr
  have n1 : 0 ≤ mmdSq (tensorKernel k r) (pairs p).data p.weights (pairs q).data q.weights := (C07_rkhs_distance big _ pt hn hm (pairs p) (pairs q) hp hq bs hbs).1
  have n2 : 0 ≤ mmdSq k p.data p.weights q.data q.weights := (C07_rkhs_distance big _ hk hn hm p.toData q.toData hp hq bs hbs).1
  have hA : ∀ a b : X × Y, tensorKernel k (fun a b => r a b + c) a b = tensorKernel k r a b + c * k a.1 b.1 := fun a b => by simp only [tensorKernel]; ring
  have e : mmdSq (tensorKernel k fun a b => r a b + c) (pairs p).data p.weights (pairs q).data q.weights = mmdSq (tensorKernel k r) (pairs p).data p.weights (pairs q).data q.weights + c * mmdSq k p.data p.weights q.data q.weights := by
    have h1 : tensorKernel k (fun a b => r a b + c) = fun a b => tensorKernel k r a b + c * k a.1 b.1 := funext fun a => funext fun b => hA a b
    rw [h1, mmdSq_add]
    congr 1
    have h2 : ∀ {n : ℕ} (w f : Fin n → ℝ), avg w (fun i => c * f i) = c * avg w f := fun w f => by
      unfold Spec.avg
      rw [← mul_div_assoc, mul_sum]
      exact congrArg (· / _) (sum_congr rfl fun i _ => by ring)
    simp only [mmdSq, h2, pairs]
    ring
  have e1 : mmdSq (tensorKernel k fun _ _ => (1 : ℝ)) (pairs p).data p.weights (pairs q).data q.weights = mmdSq k p.data p.weights q.data q.weights := by
    simp only [mmdSq, tensorKernel, mul_one, pairs]
  have h2 : jmmdCompute big k (fun a b => r a b + c) p q ^ 2 = jmmdCompute big k r p q ^ 2 + c * Real.sqrt (max 0 (mmdSq k p.data p.weights q.data q.weights)) ^ 2 := by
    rw [jmmd_eq big k _ hn hm p q hp hq, jmmd_eq big k r hn hm p q hp hq, e, Real.sq_sqrt (le_max_left _ _), Real.sq_sqrt (le_max_left _ _), Real.sq_sqrt (le_max_left _ _),
      max_eq_right n2, max_eq_right n1, max_eq_right (add_nonneg n1 (mul_nonneg hc n2))]
  refine ⟨_, C07_compute big k hn hm p.toData q.toData hp hq bs hbs, h2, ?_, by rw [jmmd_eq big k _ hn hm p q hp hq, e1]⟩
  have h0 : 0 ≤ jmmdCompute big k (fun a b => r a b + c) p q := Real.sqrt_nonneg _
  refine abs_le_of_sq_le_sq' ?_ h0 |>.2
  rw [h2, mul_pow, Real.sq_sqrt hc]
  linarith [sq_nonneg (jmmdCompute big k r p q)]

example := C97_joint_offset 1000 (fun a b : ℝ => a * b) (fun a b : ℝ => a * b) (isPSD_rankOne fun x : ℝ => x) (isPSD_rankOne fun x : ℝ => x) (c := 2) (by norm_num) (by norm_num) (by norm_num)
  (⟨⟨![0, 1], ![1, 2]⟩, ![5, 7]⟩ : SupData 2 ℝ ℝ ℝ) (⟨⟨![4], ![1]⟩, ![5]⟩ : SupData 1 ℝ ℝ ℝ) (by norm_num [Fin.sum_univ_two]) (by norm_num) (.leaf none) (.inl rfl)

/-- The joint discrepancy sees how responses are attached to features: with two rows and the responses exchanged, the features
have discrepancy 0, the responses have discrepancy 0, and the joint discrepancy is half the product of the distances of the two
features and of the two responses. -/
theorem C97_swapped (big : ℝ) (k : X → X → ℝ) (r : Y → Y → ℝ) (hk : IsPSD k) (hr : IsPSD r) (a b : X) (u v : Y) (bs : PyTree (Option ℤ)) (hbs : ValidBlock bs) :
    let p : SupData 2 X Y ℝ := ⟨⟨![a, b], fun _ => 1⟩, ![u, v]⟩
    let q : SupData 2 X Y ℝ := ⟨⟨![a, b], fun _ => 1⟩, ![v, u]⟩
    mmdCompute big k p.toData q.toData bs = .ok 0 ∧ mmdCompute big r ⟨p.supervision, p.weights⟩ ⟨q.supervision, q.weights⟩ bs = .ok 0 ∧
    jmmdCompute big k r p q = 1 / 2 * Real.sqrt (k a a - 2 * k a b + k b b) * Real.sqrt (r u u - 2 * r u v + r v v) := by
  intro p q
  have h2 : ∑ _i : Fin 2, (1 : ℝ) ≠ 0 := by norm_num
  have dk : 0 ≤ k a a - 2 * k a b + k b b := by
    have := hk.2 2 ![a, b] ![1, -1]
    simp only [Fin.sum_univ_two, Matrix.cons_val_zero, Matrix.cons_val_one] at this
    rw [hk.1 b a] at this
    linarith
  have sk := hk.1 b a
  have sr := hr.1 v u
  refine ⟨C07_self big k two_pos _ _ hbs, ?_, ?_⟩
  · rw [C07_compute big r two_pos two_pos _ _ h2 h2 bs hbs]
    have : mmdSq r ![u, v] (fun _ => 1) ![v, u] (fun _ => 1) = 0 := by
      simp only [mmdSq, avg, Fin.sum_univ_two, Matrix.cons_val_zero, Matrix.cons_val_one]
      ring
    simp only [p, q, this, max_self, Real.sqrt_zero]
  · rw [jmmd_eq big k r two_pos two_pos p q h2 h2]
    have e : mmdSq (tensorKernel k r) (pairs p).data p.weights (pairs q).data q.weights = (1 / 2) ^ 2 * ((k a a - 2 * k a b + k b b) * (r u u - 2 * r u v + r v v)) := by
      simp only [mmdSq, avg, Fin.sum_univ_two, pairs, p, q, tensorKernel, Matrix.cons_val_zero, Matrix.cons_val_one, sk, sr]
      ring
    have dr : 0 ≤ r u u - 2 * r u v + r v v := by
      have := hr.2 2 ![u, v] ![1, -1]
      simp only [Fin.sum_univ_two, Matrix.cons_val_zero, Matrix.cons_val_one] at this
      rw [hr.1 v u] at this
      linarith
    rw [e, max_eq_right (by positivity), Real.sqrt_mul (by norm_num), Real.sqrt_sq (by norm_num), Real.sqrt_mul dk]
    ring

example := C97_swapped 1000 (fun a b : ℝ => a * b) (fun a b : ℝ => a * b) (isPSD_rankOne fun x : ℝ => x) (isPSD_rankOne fun x : ℝ => x) 0 1 2 5 (.leaf none) (.inl rfl)

/-- Averages of products of a function of the features and a function of the responses differ at most by the product of the
norms times the joint discrepancy. -/
theorem C97_products (big : ℝ) (k : X → X → ℝ) (r : Y → Y → ℝ) (hk : IsPSD k) (hr : IsPSD r) (hn : 0 < n) (hm : 0 < m) (p : SupData n X Y ℝ) (q : SupData m X Y ℝ) (hp : ∑ i, p.weights i ≠ 0) (hq : ∑ i, q.weights i ≠ 0)
    {a b : ℕ} (z : Fin a → X) (c : Fin a → ℝ) (z' : Fin b → Y) (c' : Fin b → ℝ) :
    |avg p.weights (fun i => combination k z c (p.data i) * combination r z' c' (p.supervision i)) - avg q.weights fun j => combination k z c (q.data j) * combination r z' c' (q.supervision j)|
      ≤ combinationNorm k z c * combinationNorm r z' c' * jmmdCompute big k r p q := by
  obtain ⟨s, h1, h2⟩ := C95_averages big (tensorKernel k r) (C33_tensor_psd k r hk hr) hn hm (pairs p) (pairs q) hp hq (.leaf none) (.inl rfl)
  rw [C33_compute big k r hn hm p q (.leaf none) (.inl rfl)] at h1
  injection h1 with h1
  have h3 := h2 (a * b) (fun t => (z (finProdFinEquiv.symm t).1, z' (finProdFinEquiv.symm t).2)) (fun t => c (finProdFinEquiv.symm t).1 * c' (finProdFinEquiv.symm t).2)
  have e1 : ∀ o : X × Y, combination (tensorKernel k r) (fun t => (z (finProdFinEquiv.symm t).1, z' (finProdFinEquiv.symm t).2)) (fun t : Fin (a * b) => c (finProdFinEquiv.symm t).1 * c' (finProdFinEquiv.symm t).2) o
      = combination k z c o.1 * combination r z' c' o.2 := fun o => by
    unfold combination
    rw [Equiv.sum_comp finProdFinEquiv.symm (fun t : Fin a × Fin b => c t.1 * c' t.2 * tensorKernel k r (z t.1, z' t.2) o), Fintype.sum_prod_type, sum_mul_sum]
    exact sum_congr rfl fun i _ => sum_congr rfl fun j _ => by simp only [tensorKernel]; ring
  have e2 : combinationNorm (tensorKernel k r) (fun t => (z (finProdFinEquiv.symm t).1, z' (finProdFinEquiv.symm t).2)) (fun t : Fin (a * b) => c (finProdFinEquiv.symm t).1 * c' (finProdFinEquiv.symm t).2)
      = combinationNorm k z c * combinationNorm r z' c' := by
    unfold combinationNorm
    rw [← Real.sqrt_mul (hk.2 _ _ _)]
    congr 1
    rw [Equiv.sum_comp finProdFinEquiv.symm (fun t : Fin a × Fin b => ∑ l : Fin (a * b), c t.1 * c' t.2 * (c (finProdFinEquiv.symm l).1 * c' (finProdFinEquiv.symm l).2) * tensorKernel k r (z t.1, z' t.2) (z (finProdFinEquiv.symm l).1, z' (finProdFinEquiv.symm l).2))]
    have : ∀ t : Fin a × Fin b, ∑ l : Fin (a * b), c t.1 * c' t.2 * (c (finProdFinEquiv.symm l).1 * c' (finProdFinEquiv.symm l).2) * tensorKernel k r (z t.1, z' t.2) (z (finProdFinEquiv.symm l).1, z' (finProdFinEquiv.symm l).2)
        = (∑ i, c t.1 * c i * k (z t.1) (z i)) * ∑ j, c' t.2 * c' j * r (z' t.2) (z' j) := fun t => by
      rw [Equiv.sum_comp finProdFinEquiv.symm (fun l : Fin a × Fin b => c t.1 * c' t.2 * (c l.1 * c' l.2) * tensorKernel k r (z t.1, z' t.2) (z l.1, z' l.2)), Fintype.sum_prod_type, sum_mul_sum]
      exact sum_congr rfl fun i _ => sum_congr rfl fun j _ => by simp only [tensorKernel]; ring
    simp only [this]
    rw [Fintype.sum_prod_type, sum_mul_sum]
  simp only [e1] at h3
  rw [e2, ← h1] at h3
  exact h3

example := C97_products 1000 (fun a b : ℝ => a * b) (fun a b : ℝ => a * b) (isPSD_rankOne fun x : ℝ => x) (isPSD_rankOne fun x : ℝ => x) (by norm_num) (by norm_num)
  (⟨⟨![0, 1], ![1, 2]⟩, ![5, 7]⟩ : SupData 2 ℝ ℝ ℝ) (⟨⟨![4], ![1]⟩, ![5]⟩ : SupData 1 ℝ ℝ ℝ) (by norm_num [Fin.sum_univ_two]) (by norm_num) ![1, 2] ![3, -1] ![2] ![1]

end

end Coreax
