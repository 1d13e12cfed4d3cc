import Verif.Props.RateEndToEnd
import Verif.Props.RoundedHerding
import Verif.Props.SteinRate
import Verif.Props.ScoreError
import Verif.Props.Weights

/-!
# C100: a kernel that is slightly wrong
-/

namespace Coreax

open Finset Spec

namespace KernelError

variable {X : Type*}

theorem avg_close {n : ℕ} (w f g : Fin n → ℝ) (hw : ∀ i, 0 ≤ w i) (hW : 0 < ∑ i, w i) {η : ℝ} (h : ∀ i, 0 < w i → |f i - g i| ≤ η) :
    |avg w f - avg w g| ≤ η := by
  have e : avg w f - avg w g = avg w fun i => f i - g i := by
    unfold avg
    rw [← sub_div, ← sum_sub_distrib]
    simp only [mul_sub]
  rw [e, abs_le]
  constructor
  · have h1 := Rate.avg_le w hw hW (fun i => -(f i - g i)) η fun i hi => (neg_le_abs _).trans (h i hi)
    have e2 : (avg w fun i => -(f i - g i)) = -avg w fun i => f i - g i := by
      unfold avg
      rw [← neg_div, ← sum_neg_distrib]
      simp only [mul_neg]
    linarith
  · exact Rate.avg_le w hw hW _ η fun i hi => (le_abs_self _).trans (h i hi)

theorem avg_avg_close {k k' : X → X → ℝ} {n m : ℕ} (x : Fin n → X) (w : Fin n → ℝ) (y : Fin m → X) (v : Fin m → ℝ) (hw : ∀ i, 0 ≤ w i)
    (hW : 0 < ∑ i, w i) (hv : ∀ i, 0 ≤ v i) (hV : 0 < ∑ i, v i) {η : ℝ} (h : ∀ i j, 0 < w i → 0 < v j → |k (x i) (y j) - k' (x i) (y j)| ≤ η) :
    |(avg w fun i => avg v fun j => k (x i) (y j)) - avg w fun i => avg v fun j => k' (x i) (y j)| ≤ η :=
  avg_close w _ _ hw hW fun i hi => avg_close v _ _ hv hV fun j hj => h i j hi hj

theorem sqrt_close {a b c : ℝ} (h : |a - b| ≤ c) : |Real.sqrt (max 0 a) - Real.sqrt (max 0 b)| ≤ Real.sqrt c := by
  have key : ∀ {a b : ℝ}, |a - b| ≤ c → Real.sqrt (max 0 a) ≤ Real.sqrt (max 0 b) + Real.sqrt c := fun {a b} h => by
    have h0 : 0 ≤ c := (abs_nonneg _).trans h
    rw [Real.sqrt_le_left (add_nonneg (Real.sqrt_nonneg _) (Real.sqrt_nonneg _)), add_sq, Real.sq_sqrt (le_max_left _ _), Real.sq_sqrt h0]
    have := mul_nonneg (Real.sqrt_nonneg (max 0 b)) (Real.sqrt_nonneg c)
    have := (abs_le.1 h).2
    have := le_max_right 0 b
    have := le_max_left 0 b
    exact max_le (by linarith) (by linarith)
  have h1 := key h
  have h2 := key (by rwa [abs_sub_comm] : |b - a| ≤ c)
  rw [abs_le]
  constructor <;> linarith

theorem mmdSq_close {k k' : X → X → ℝ} {n m : ℕ} (x : Fin n → X) (w : Fin n → ℝ) (y : Fin m → X) (v : Fin m → ℝ) (hw : ∀ i, 0 ≤ w i)
    (hW : 0 < ∑ i, w i) (hv : ∀ i, 0 ≤ v i) (hV : 0 < ∑ i, v i) {η : ℝ} (hxx : ∀ i j, 0 < w i → 0 < w j → |k (x i) (x j) - k' (x i) (x j)| ≤ η)
    (hxy : ∀ i j, 0 < w i → 0 < v j → |k (x i) (y j) - k' (x i) (y j)| ≤ η) (hyy : ∀ i j, 0 < v i → 0 < v j → |k (y i) (y j) - k' (y i) (y j)| ≤ η) :
    |mmdSq k x w y v - mmdSq k' x w y v| ≤ 4 * η := by
  have h1 := abs_le.1 (avg_avg_close x w x w hw hW hw hW hxx)
  have h2 := abs_le.1 (avg_avg_close x w y v hw hW hv hV hxy)
  have h3 := abs_le.1 (avg_avg_close y v y v hv hV hv hV hyy)
  unfold mmdSq
  rw [abs_le]
  constructor <;> linarith [h1.1, h1.2, h2.1, h2.2, h3.1, h3.2]

theorem double_close {n m : ℕ} {w : Fin n → ℝ} {v : Fin m → ℝ} (hw : OnSimplex w) (hv : OnSimplex v) {F G : Fin n → Fin m → ℝ} {η : ℝ}
    (h : ∀ i j, |F i j - G i j| ≤ η) : |∑ i, ∑ j, w i * v j * F i j - ∑ i, ∑ j, w i * v j * G i j| ≤ η := by
  have h1 := avg_close w (fun i => avg v fun j => F i j) (fun i => avg v fun j => G i j) hw.1 (by rw [hw.2]; exact one_pos)
    fun i _ => avg_close v _ _ hv.1 (by rw [hv.2]; exact one_pos) fun j _ => h i j
  simpa only [avg, hw.2, hv.2, div_one, mul_sum, ← mul_assoc] using h1

theorem max_close (a b : ℝ) : |max 0 a - max 0 b| ≤ |a - b| := by
  simpa only [max_comm (0 : ℝ)] using abs_max_sub_max_le_abs a b (0 : ℝ)

theorem sqrt_four (η : ℝ) : Real.sqrt (4 * η) = 2 * Real.sqrt η := by
  rw [Real.sqrt_mul (by norm_num), show (4 : ℝ) = 2 ^ 2 by norm_num, Real.sqrt_sq (by norm_num)]

end KernelError

open KernelError

section
variable {X : Type*} [Zero X]

/-- **C100.** Two kernels that differ by at most `η` on the rows of positive weight have mean matrices that differ by at most `η`, whatever the
number of rows and the block size. -/
theorem C100_mean (big : ℝ) (k k' : X → X → ℝ) {n m : ℕ} (hn : 0 < n) (hm : 0 < m) (x : Data n X ℝ) (y : Data m X ℝ) (hx0 : ∀ i, 0 ≤ x.weights i)
    (hx : 0 < ∑ i, x.weights i) (hy0 : ∀ i, 0 ≤ y.weights i) (hy : 0 < ∑ i, y.weights i) {η : ℝ}
    (h : ∀ i j, 0 < x.weights i → 0 < y.weights j → |k (x.data i) (y.data j) - k' (x.data i) (y.data j)| ≤ η)
    (bs bs' : PyTree (Option ℤ)) (hbs : ValidBlock bs) (hbs' : ValidBlock bs') :
    ∃ r r', computeMean big k x y .none bs = .ok [r] ∧ computeMean big k' x y .none bs' = .ok [r'] ∧ |r - r'| ≤ η :=
  ⟨_, _, C05_mean_none big k hn hm x y hx.ne' hy.ne' bs hbs, C05_mean_none big k' hn hm x y hx.ne' hy.ne' bs' hbs',
    avg_avg_close _ _ _ _ hx0 hx hy0 hy h⟩

/-- **C100.** The two values of the maximum mean discrepancy differ by at most `2 sqrt η`, and their squares (where the sums are not negative, as
for positive semi-definite kernels) by at most `4 η`. The kernels need not be symmetric or positive semi-definite. -/
theorem C100_mmd (big : ℝ) (k k' : X → X → ℝ) {n m : ℕ} (hn : 0 < n) (hm : 0 < m) (x : Data n X ℝ) (y : Data m X ℝ) (hx0 : ∀ i, 0 ≤ x.weights i)
    (hx : 0 < ∑ i, x.weights i) (hy0 : ∀ i, 0 ≤ y.weights i) (hy : 0 < ∑ i, y.weights i) {η : ℝ}
    (hxx : ∀ i j, 0 < x.weights i → 0 < x.weights j → |k (x.data i) (x.data j) - k' (x.data i) (x.data j)| ≤ η)
    (hxy : ∀ i j, 0 < x.weights i → 0 < y.weights j → |k (x.data i) (y.data j) - k' (x.data i) (y.data j)| ≤ η)
    (hyy : ∀ i j, 0 < y.weights i → 0 < y.weights j → |k (y.data i) (y.data j) - k' (y.data i) (y.data j)| ≤ η)
    (bs bs' : PyTree (Option ℤ)) (hbs : ValidBlock bs) (hbs' : ValidBlock bs') :
    ∃ r r', mmdCompute big k x y bs = .ok r ∧ mmdCompute big k' x y bs' = .ok r' ∧ |r - r'| ≤ 2 * Real.sqrt η ∧ |r ^ 2 - r' ^ 2| ≤ 4 * η := by
  have h := mmdSq_close x.data x.weights y.data y.weights hx0 hx hy0 hy hxx hxy hyy
  refine ⟨_, _, C07_compute big k hn hm x y hx.ne' hy.ne' bs hbs, C07_compute big k' hn hm x y hx.ne' hy.ne' bs' hbs', ?_, ?_⟩
  · rw [← sqrt_four]
    exact sqrt_close h
  · rw [Real.sq_sqrt (le_max_left _ _), Real.sq_sqrt (le_max_left _ _)]
    exact (max_close _ _).trans h

/-- **C100.** The two values of the kernel Stein discrepancy differ by at most `sqrt η`, and their squares by at most `η`. -/
theorem C100_ksd (big : ℝ) (k k' : X → X → ℝ) {m : ℕ} (hm : 0 < m) (y : Data m X ℝ) (hy0 : ∀ i, 0 ≤ y.weights i) (hy : 0 < ∑ i, y.weights i) {η : ℝ}
    (h : ∀ i j, 0 < y.weights i → 0 < y.weights j → |k (y.data i) (y.data j) - k' (y.data i) (y.data j)| ≤ η)
    (logp lap : Option (Fin m → ℝ)) (bs bs' : PyTree (Option ℤ)) (hbs : ValidBlock bs) (hbs' : ValidBlock bs') :
    ∃ r r', ksdCompute big k y bs logp lap = .ok r ∧ ksdCompute big k' y bs' logp lap = .ok r' ∧ |r - r'| ≤ Real.sqrt η ∧ |r ^ 2 - r' ^ 2| ≤ η := by
  have h1 := avg_avg_close y.data y.weights y.data y.weights hy0 hy hy0 hy h
  refine ⟨_, _, C35_ksd_value big k hm y hy.ne' bs hbs logp lap, C35_ksd_value big k' hm y hy.ne' bs' hbs' logp lap, ?_, ?_⟩
  · refine sqrt_close ?_
    rwa [sub_sub_sub_cancel_right, add_sub_add_right_eq_sub]
  · rw [Real.sq_sqrt (le_max_left _ _), Real.sq_sqrt (le_max_left _ _)]
    refine le_trans ?_ h1
    refine (max_close _ _).trans ?_
    rw [sub_sub_sub_cancel_right, add_sub_add_right_eq_sub]

variable {n : ℕ} [NeZero n]

/-- **C100.** Herding with the wrong kernel `k'`, judged with the right kernel `k`: the rate of herding with `k'` plus `4 η`. Neither kernel
has to be positive semi-definite, so rounding of the kernel values is covered. -/
theorem C100_herding (big : ℝ) (k k' : X → X → ℝ) (hk' : ∀ a b, k' a b = k' b a) (bs : PyTree (Option ℤ)) (hbs : ValidBlock bs) (size : ℕ)
    (hsize : 0 < size) (hle : size ≤ n) (pre : Data n X ℝ) (hw0 : ∀ j, 0 ≤ pre.weights j) (hpos : ∃ j, 0 < pre.weights j)
    (ord : List (Fin (size + (size - size)))) (hord : ∀ t, t ∈ ord) (R : ℝ) (hR : ∀ j, 0 < pre.weights j → k' (pre.data j) (pre.data j) ≤ R)
    {η : ℝ} (h : ∀ i j, |k (pre.data i) (pre.data j) - k' (pre.data i) (pre.data j)| ≤ η) :
    ∃ f : Fin size → Fin n, ∃ st, herdingReduce big k' none false bs size pre none ord = .ok (⟨fun t => (f t : ℤ), fun _ => 1⟩, st) ∧
      mmdSq k pre.data pre.weights (fun t => pre.data (f t)) (fun _ => 1)
        ≤ (R - avg pre.weights fun i => avg pre.weights fun j => k (pre.data i) (pre.data j)) / size + (4 + 1 / size) * η := by
  obtain ⟨f, st, h1, h2⟩ := C48_herding_rate big k' hk' bs hbs size hsize hle pre hw0 hpos none (by simp) ord hord R hR
  refine ⟨f, st, h1, ?_⟩
  have hW : 0 < ∑ j, pre.weights j := by
    obtain ⟨j, hj⟩ := hpos
    exact sum_pos' (fun j _ => hw0 j) ⟨j, mem_univ _, hj⟩
  have hs : (0 : ℝ) < size := by positivity
  have h3 := mmdSq_close pre.data pre.weights (fun t => pre.data (f t)) (fun _ => (1 : ℝ)) hw0 hW (fun _ => zero_le_one) (by simpa using hs)
    (fun i j _ _ => h i j) (fun i j _ _ => h i (f j)) (fun i j _ _ => h (f i) (f j))
  have h4 := avg_avg_close pre.data pre.weights pre.data pre.weights hw0 hW hw0 hW (fun i j _ _ => h i j)
  have h5 : (R - avg pre.weights fun i => avg pre.weights fun j => k' (pre.data i) (pre.data j)) / size
      ≤ (R - avg pre.weights fun i => avg pre.weights fun j => k (pre.data i) (pre.data j)) / size + 1 / size * η := by
    rw [one_div_mul_eq_div, ← add_div]
    exact div_le_div_of_nonneg_right (by linarith [(abs_le.1 h4).2]) hs.le
  linarith [(abs_le.1 h3).2]

/-- **C100.** The same for distinct points (the default) on equally weighted rows, in terms of the values the package returns: judged with the right
kernel, the coreset of the wrong one is worse than the usual bound by at most `2 sqrt η`. -/
theorem C100_herding_unique (big : ℝ) (k k' : X → X → ℝ) (hk' : IsPSD k') (bs bs' : PyTree (Option ℤ)) (hbs : ValidBlock bs)
    (hbs' : ValidBlock bs') (size : ℕ) (hsize : 0 < size) (pre : Data n X ℝ) (hu : UniformWeights pre.weights) (hpos : PosCount pre.weights size)
    (ord : List (Fin (size + (size - size)))) (hord : ∀ t, t ∈ ord) (R : ℝ) (hR : ∀ j, 0 < pre.weights j → k' (pre.data j) (pre.data j) ≤ R)
    {η : ℝ} (h : ∀ i j, |k (pre.data i) (pre.data j) - k' (pre.data i) (pre.data j)| ≤ η) :
    ∃ f : Fin size → Fin n, ∃ st r, herdingReduce big k' none true bs size pre none ord = .ok (⟨fun t => (f t : ℤ), fun _ => 1⟩, st) ∧
      mmdCompute big k pre ⟨fun t => pre.data (f t), fun _ => 1⟩ bs' = .ok r ∧ r ≤ Real.sqrt (R / size) + 2 * Real.sqrt η := by
  obtain ⟨f, st, h1, h2⟩ := C48_herding_rate_unique big k' hk'.1 bs hbs size hsize pre (fun c => hk'.2 _ _ c) hu hpos none (by simp) ord hord R hR
  obtain ⟨c, hc0, hc⟩ := hu
  have hw0 : ∀ j, 0 ≤ pre.weights j := fun j => by rcases hc j with h | h <;> rw [h]; exact hc0.le
  have hW : 0 < ∑ j, pre.weights j := by
    have : 0 < (univ.filter (fun j => 0 < pre.weights j)).card := lt_of_lt_of_le hsize hpos
    obtain ⟨j, hj⟩ := card_pos.1 this
    exact sum_pos' (fun j _ => hw0 j) ⟨j, mem_univ _, (mem_filter.1 hj).2⟩
  have hs : (0 : ℝ) < size := by positivity
  obtain ⟨r, r', h3, h4, h5, -⟩ := C100_mmd big k k' (NeZero.pos n) hsize pre ⟨fun t => pre.data (f t), fun _ => (1 : ℝ)⟩ hw0 hW (fun _ => zero_le_one)
    (by simpa using hs) (fun i j _ _ => h i j) (fun i j _ _ => h i (f j)) (fun i j _ _ => h (f i) (f j)) bs' bs' hbs' hbs'
  refine ⟨f, st, r, h1, h3, ?_⟩
  have h6 : r' ≤ Real.sqrt (R / size) := by
    have e := C07_compute big k' (NeZero.pos n) hsize pre ⟨fun t => pre.data (f t), fun _ => (1 : ℝ)⟩ hW.ne' (by simpa using hs.ne') bs' hbs'
    rw [h4] at e
    rw [Except.ok.inj e]
    have hM : 0 ≤ avg pre.weights fun i => avg pre.weights fun j => k' (pre.data i) (pre.data j) := by
      rw [ScoreError.avg_avg]
      exact div_nonneg (hk'.2 _ _ _) (sq_nonneg _)
    have hb : mmdSq k' pre.data pre.weights (fun t => pre.data (f t)) (fun _ => 1) ≤ R / size :=
      h2.trans (div_le_div_of_nonneg_right (by linarith) hs.le)
    obtain ⟨j, hj⟩ : ∃ j, 0 < pre.weights j := by
      by_contra hcn
      push Not at hcn
      exact hW.not_ge (sum_nonpos fun j _ => hcn j)
    have hR0 : 0 ≤ R := le_trans (by
      have := hk'.2 1 (fun _ => pre.data j) (fun _ => 1)
      simpa using this) (hR j hj)
    exact Real.sqrt_le_sqrt (max_le (by positivity) hb)
  linarith [(abs_le.1 h5).2]

/-- **C100.** Stein thinning with the wrong Stein kernel `k'` (for instance of a base kernel with another length scale), judged with the right one:
at most `2 sqrt η` worse than the usual bound. -/
theorem C100_stein (big : ℝ) (k k' : X → X → ℝ) (hk' : IsPSD k') (unique : Bool) (bs bs' : PyTree (Option ℤ)) (hbs : ValidBlock bs)
    (hbs' : ValidBlock bs') (size : ℕ) (hsize : 0 < size) (pre : Data n X ℝ) (hw0 : ∀ j, 0 ≤ pre.weights j)
    (hu : unique = true → UniformWeights pre.weights) (hpos : PosCount pre.weights size)
    (ord : List (Fin (size + (size - size)))) (hord : ∀ t, t ∈ ord) (R : ℝ) (hR : ∀ j, 0 < pre.weights j → k' (pre.data j) (pre.data j) ≤ R)
    {η : ℝ} (h : ∀ i j, |k (pre.data i) (pre.data j) - k' (pre.data i) (pre.data j)| ≤ η) :
    ∃ f : Fin size → Fin n, ∃ r r₀, steinReduce big k' unique bs size pre none ord = .ok ⟨fun t => (f t : ℤ), fun _ => 1⟩ ∧
      ksdCompute big k ⟨fun t => pre.data (f t), fun _ => (1 : ℝ)⟩ bs' none none = .ok r ∧ ksdCompute big k pre bs' none none = .ok r₀ ∧
      r ≤ r₀ + Real.sqrt (R / size) + 2 * Real.sqrt η := by
  have hs : (0 : ℝ) < size := by positivity
  have hW : 0 < ∑ j, pre.weights j := by
    have : 0 < (univ.filter (fun j => 0 < pre.weights j)).card := lt_of_lt_of_le hsize hpos
    obtain ⟨j, hj⟩ := card_pos.1 this
    exact sum_pos' (fun j _ => hw0 j) ⟨j, mem_univ _, (mem_filter.1 hj).2⟩
  have hf : ∃ f : Fin size → Fin n, steinReduce big k' unique bs size pre none ord = .ok ⟨fun t => (f t : ℤ), fun _ => 1⟩ ∧
      ksd k' (fun t => pre.data (f t)) (fun _ => 1) ≤ ksd k' pre.data pre.weights + Real.sqrt (R / size) := by
    cases unique with
    | true => exact C49_stein_rate_unique big k' hk'.1 bs hbs size hsize pre (fun c => hk'.2 _ _ c) (hu rfl) ord hord hpos R hR
    | false =>
      obtain ⟨f, h1, h2⟩ := C49_stein_rate big k' hk'.1 bs hbs size hsize pre (fun c => hk'.2 _ _ c) ord hord hpos
      refine ⟨f, h1, (h2 pre.weights hw0 hW fun _ hj => hj).trans (add_le_add le_rfl (Real.sqrt_le_sqrt ?_))⟩
      exact div_le_div_of_nonneg_right (Rate.avg_le pre.weights hw0 hW _ R hR) hs.le
  obtain ⟨f, h1, h2⟩ := hf
  obtain ⟨r, r', a1, a2, a3, -⟩ := C100_ksd big k k' hsize ⟨fun t => pre.data (f t), fun _ => (1 : ℝ)⟩ (fun _ => zero_le_one) (by simpa using hs)
    (fun i j _ _ => h (f i) (f j)) none none bs' bs' hbs' hbs'
  obtain ⟨s, s', b1, b2, b3, -⟩ := C100_ksd big k k' (NeZero.pos n) pre hw0 hW (fun i j _ _ => h i j) none none bs' bs' hbs' hbs'
  refine ⟨f, r, s, h1, a1, b1, ?_⟩
  have c1 : r' = ksd k' (fun t => pre.data (f t)) (fun _ => 1) := by
    have e := C35_ksd_value big k' hsize ⟨fun t => pre.data (f t), fun _ => (1 : ℝ)⟩ (by simpa using hs.ne') bs' hbs' none none
    rw [a2] at e
    rw [Except.ok.inj e, ksd]
    simp only [add_zero, sub_zero]
    rw [max_eq_right]
    rw [ScoreError.avg_avg]
    exact div_nonneg (hk'.2 _ _ _) (sq_nonneg _)
  have c2 : s' = ksd k' pre.data pre.weights := by
    have e := C35_ksd_value big k' (NeZero.pos n) pre hW.ne' bs' hbs' none none
    rw [b2] at e
    rw [Except.ok.inj e, ksd]
    simp only [add_zero, sub_zero]
    rw [max_eq_right]
    rw [ScoreError.avg_avg]
    exact div_nonneg (hk'.2 _ _ _) (sq_nonneg _)
  rw [← c1, ← c2] at h2
  linarith [(abs_le.1 a3).2, (abs_le.1 b3).1]

/-- **C100.** Where at every step of herding with `k` the point taken leads all other allowed points by more than `4 η`, herding with `k'` takes the
same points in the same order (and `k` itself does take them). -/
theorem C100_same_points (big : ℝ) (k k' : X → X → ℝ) (hk : ∀ a b, k a b = k b a) (hk' : ∀ a b, k' a b = k' b a) (unique : Bool)
    (bs : PyTree (Option ℤ)) (hbs : ValidBlock bs) (size : ℕ) (hsize : 0 < size) (pre : Data n X ℝ) (hw0 : ∀ j, 0 ≤ pre.weights j)
    (hpos : PosCount pre.weights size) (ord : List (Fin (size + (size - size)))) (hord : ∀ t, t ∈ ord)
    {η : ℝ} (hη : 0 ≤ η) (h : ∀ i j, |k (pre.data i) (pre.data j) - k' (pre.data i) (pre.data j)| ≤ η)
    (f : Fin size → Fin n) (hf : ∀ i, 0 < pre.weights (f i) ∧ (unique = true → ∀ t, t < i → f t ≠ f i))
    (hgap : ∀ i j, 0 < pre.weights j → (unique = true → ∀ t, t < i → f t ≠ j) → j ≠ f i →
      (avg pre.weights fun l => k (pre.data l) (pre.data j)) - (∑ t, if t < i then k (pre.data j) (pre.data (f t)) else 0) / ((i : ℕ) + 1 : ℝ) + 4 * η
      < (avg pre.weights fun l => k (pre.data l) (pre.data (f i))) - (∑ t, if t < i then k (pre.data (f i)) (pre.data (f t)) else 0) / ((i : ℕ) + 1 : ℝ)) :
    ∃ st st', herdingReduce big k none unique bs size pre none ord = .ok (⟨fun t => (f t : ℤ), fun _ => 1⟩, st) ∧
      herdingReduce big k' none unique bs size pre none ord = .ok (⟨fun t => (f t : ℤ), fun _ => 1⟩, st') := by
  have hW : 0 < ∑ j, pre.weights j := by
    have : 0 < (univ.filter (fun j => 0 < pre.weights j)).card := lt_of_lt_of_le hsize hpos
    obtain ⟨j, hj⟩ := card_pos.1 this
    exact sum_pos' (fun j _ => hw0 j) ⟨j, mem_univ _, (mem_filter.1 hj).2⟩
  have main : ∀ q : X → X → ℝ, (∀ a b, q a b = q b a) → (∀ i j, |k (pre.data i) (pre.data j) - q (pre.data i) (pre.data j)| ≤ η) →
      ∃ st, herdingReduce big q none unique bs size pre none ord = .ok (⟨fun t => (f t : ℤ), fun _ => 1⟩, st) := by
    intro q hq hcl
    obtain ⟨g, h1, h2⟩ := C12_reduce_greedy big q hq unique bs hbs size hsize pre hW.ne' none (by simp) ord hord hpos
    have key : ∀ i, g i = f i := by
      intro i
      induction i using WellFoundedLT.induction with
      | ind i ih =>
        obtain ⟨⟨a1, a2⟩, a3, -⟩ := h2 i
        by_contra hne
        have hs : ∀ j, (∑ t, if t < i then q (pre.data j) (pre.data (g t)) else 0) = ∑ t, if t < i then q (pre.data j) (pre.data (f t)) else 0 :=
          fun j => sum_congr rfl fun t _ => by
            split_ifs with ht
            · rw [ih t ht]
            · rfl
        have b1 := hgap i (g i) a1 (fun hun t ht => by rw [← ih t ht]; exact a2 hun t ht) hne
        have b2 := a3 (f i) ⟨(hf i).1, fun hun t ht => by rw [ih t ht]; exact (hf i).2 hun t ht⟩
        simp only [hs] at b2
        have e1 : ∀ j, |(avg pre.weights fun l => k (pre.data l) (pre.data j)) - avg pre.weights fun l => q (pre.data l) (pre.data j)| ≤ η :=
          fun j => avg_close _ _ _ hw0 hW fun l _ => hcl l j
        have hip : (0 : ℝ) < (i : ℕ) + 1 := by positivity
        have e2 : ∀ j, |(∑ t, if t < i then k (pre.data j) (pre.data (f t)) else 0) / ((i : ℕ) + 1 : ℝ)
            - (∑ t, if t < i then q (pre.data j) (pre.data (f t)) else 0) / ((i : ℕ) + 1 : ℝ)| ≤ η := fun j => by
          rw [← sub_div, ← sum_sub_distrib, abs_div, abs_of_pos hip, div_le_iff₀ hip]
          refine (abs_sum_le_sum_abs _ _).trans ?_
          have : ∀ t, |(if t < i then k (pre.data j) (pre.data (f t)) else 0) - (if t < i then q (pre.data j) (pre.data (f t)) else 0)|
              ≤ if t < i then η else 0 := fun t => by
            split_ifs
            · exact hcl _ _
            · simp
          refine (sum_le_sum fun t _ => this t).trans ?_
          rw [← sum_filter, sum_const, nsmul_eq_mul, mul_comm]
          refine mul_le_mul_of_nonneg_left ?_ hη
          have : (univ.filter fun t : Fin size => t < i) = Iio i := by ext; simp
          rw [this, Fin.card_Iio]
          linarith
        have u1 := abs_le.1 (e1 (f i))
        have u2 := abs_le.1 (e1 (g i))
        have u3 := abs_le.1 (e2 (f i))
        have u4 := abs_le.1 (e2 (g i))
        linarith [u1.1, u1.2, u2.1, u2.2, u3.1, u3.2, u4.1, u4.2]
    have : g = f := funext key
    subst this
    exact ⟨_, h1⟩
  obtain ⟨st, h1⟩ := main k hk fun i j => by simpa using hη
  obtain ⟨st', h2⟩ := main k' hk' h
  exact ⟨st, st', h1, h2⟩

/-- **C100.** The same for Stein thinning, where the penalty of step `i` (counted from 0) is a sum of `2 i + 1` kernel values: a lead of more than
`(4 i + 2) η` is safe. -/
theorem C100_same_points_stein (big : ℝ) (k k' : X → X → ℝ) (unique : Bool) (bs : PyTree (Option ℤ)) (hbs : ValidBlock bs)
    (size : ℕ) (hsize : 0 < size) (pre : Data n X ℝ) (hpos : PosCount pre.weights size)
    (ord : List (Fin (size + (size - size)))) (hord : ∀ t, t ∈ ord)
    {η : ℝ} (hη : 0 ≤ η) (h : ∀ i j, |k (pre.data i) (pre.data j) - k' (pre.data i) (pre.data j)| ≤ η)
    (f : Fin size → Fin n) (hf : ∀ i, 0 < pre.weights (f i) ∧ (unique = true → ∀ t, t < i → f t ≠ f i))
    (hgap : ∀ i j, 0 < pre.weights j → (unique = true → ∀ t, t < i → f t ≠ j) → j ≠ f i →
      k (pre.data (f i)) (pre.data (f i)) + 2 * (∑ t, if t < i then k (pre.data (f i)) (pre.data (f t)) else 0) + (4 * (i : ℕ) + 2 : ℝ) * η
      < k (pre.data j) (pre.data j) + 2 * ∑ t, if t < i then k (pre.data j) (pre.data (f t)) else 0) :
    steinReduce big k unique bs size pre none ord = .ok ⟨fun t => (f t : ℤ), fun _ => 1⟩ ∧
      steinReduce big k' unique bs size pre none ord = .ok ⟨fun t => (f t : ℤ), fun _ => 1⟩ := by
  have main : ∀ q : X → X → ℝ, (∀ i j, |k (pre.data i) (pre.data j) - q (pre.data i) (pre.data j)| ≤ η) →
      steinReduce big q unique bs size pre none ord = .ok ⟨fun t => (f t : ℤ), fun _ => 1⟩ := by
    intro q hcl
    obtain ⟨g, h1, h2, -⟩ := C15_reduce_greedy big q unique bs hbs size hsize pre none ord hord hpos
    have key : ∀ i, g i = f i := by
      intro i
      induction i using WellFoundedLT.induction with
      | ind i ih =>
        obtain ⟨⟨a1, a2⟩, a3⟩ := h2 i
        by_contra hne
        have hs : ∀ j, (∑ t, if t < i then q (pre.data j) (pre.data (g t)) else 0) = ∑ t, if t < i then q (pre.data j) (pre.data (f t)) else 0 :=
          fun j => sum_congr rfl fun t _ => by
            split_ifs with ht
            · rw [ih t ht]
            · rfl
        have b1 := hgap i (g i) a1 (fun hun t ht => by rw [← ih t ht]; exact a2 hun t ht) hne
        have b2 := (a3 (f i) ⟨(hf i).1, fun hun t ht => by rw [ih t ht]; exact (hf i).2 hun t ht⟩).1
        simp only [hs, regLap, regLogp, add_zero, mul_zero, sub_zero] at b2
        have e2 : ∀ j, |(∑ t, if t < i then k (pre.data j) (pre.data (f t)) else 0) - ∑ t, if t < i then q (pre.data j) (pre.data (f t)) else 0|
            ≤ (i : ℕ) * η := fun j => by
          rw [← sum_sub_distrib]
          refine (abs_sum_le_sum_abs _ _).trans ?_
          have : ∀ t, |(if t < i then k (pre.data j) (pre.data (f t)) else 0) - (if t < i then q (pre.data j) (pre.data (f t)) else 0)|
              ≤ if t < i then η else 0 := fun t => by
            split_ifs
            · exact hcl _ _
            · simp
          refine (sum_le_sum fun t _ => this t).trans ?_
          rw [← sum_filter, sum_const, nsmul_eq_mul]
          have : (univ.filter fun t : Fin size => t < i) = Iio i := by ext; simp
          rw [this, Fin.card_Iio]
        have u1 := abs_le.1 (hcl (f i) (f i))
        have u2 := abs_le.1 (hcl (g i) (g i))
        have u3 := abs_le.1 (e2 (f i))
        have u4 := abs_le.1 (e2 (g i))
        nlinarith [u1.1, u1.2, u2.1, u2.2, u3.1, u3.2, u4.1, u4.2]
    have : g = f := funext key
    subst this
    exact h1
  exact ⟨main k fun i j => by simpa using hη, main k' h⟩

/-- **C100.** The MMD weights computed with the wrong kernel `k'`, judged with the right kernel `k`: within `8 η` of the best weights on the simplex. -/
theorem C100_weights {Y : Type*} (qp : SimplexQP ℝ) (hqp : QPContract qp) (big : ℝ) (k k' : X → X → ℝ) (hk' : ∀ a b, k' a b = k' b a) {n m : ℕ}
    (hn : 0 < n) (hm : 0 < m) (dataset : DSet n X Y ℝ) (coreset : DSet m X Y ℝ) (h1 : dataset.sup = none) (h2 : coreset.sup = none) (eps : ℝ)
    (heps : 0 ≤ eps) (hpsd : ∀ v : Fin m → ℝ, 0 ≤ ∑ i, ∑ j, v i * v j * k' (coreset.data i) (coreset.data j))
    (bs : PyTree (Option ℤ)) (hbs : ValidBlock bs) {η : ℝ}
    (hxx : ∀ i j, |k (dataset.data i) (dataset.data j) - k' (dataset.data i) (dataset.data j)| ≤ η)
    (hxy : ∀ i j, |k (dataset.data i) (coreset.data j) - k' (dataset.data i) (coreset.data j)| ≤ η)
    (hyy : ∀ i j, |k (coreset.data i) (coreset.data j) - k' (coreset.data i) (coreset.data j)| ≤ η) :
    ∃ v : Fin m → ℝ, mmdWeightsSolve qp big k' dataset coreset eps bs = .ok (fun i => .fin (v i)) ∧ OnSimplex v ∧
      ∀ u, OnSimplex u → distSq k dataset.data (fun _ => 1 / (n : ℝ)) coreset.data v + eps * ∑ i, v i ^ 2
        ≤ distSq k dataset.data (fun _ => 1 / (n : ℝ)) coreset.data u + eps * ∑ i, u i ^ 2 + 8 * η := by
  obtain ⟨v, h3, h4, h5⟩ := C29_optimal qp hqp big k' hk' hn hm dataset coreset h1 h2 eps heps hpsd bs hbs
  have hn0 : OnSimplex (fun _ : Fin n => 1 / (n : ℝ)) := by
    refine ⟨fun _ => by positivity, ?_⟩
    rw [sum_const, card_univ, Fintype.card_fin, nsmul_eq_mul]
    have : (n : ℝ) ≠ 0 := by positivity
    field_simp
  have close : ∀ u, OnSimplex u → |distSq k dataset.data (fun _ => 1 / (n : ℝ)) coreset.data u - distSq k' dataset.data (fun _ => 1 / (n : ℝ)) coreset.data u|
      ≤ 4 * η := fun u hu => by
    have a1 := abs_le.1 (double_close hn0 hn0 hxx)
    have a2 := abs_le.1 (double_close hn0 hu hxy)
    have a3 := abs_le.1 (double_close hu hu hyy)
    unfold distSq
    rw [abs_le]
    constructor <;> linarith [a1.1, a1.2, a2.1, a2.2, a3.1, a3.2]
  refine ⟨v, h3, h4, fun u hu => ?_⟩
  have b1 := abs_le.1 (close v h4)
  have b2 := abs_le.1 (close u hu)
  linarith [h5 u hu, b1.1, b1.2, b2.1, b2.2]

end

/-- **C100.** The points themselves can change with an arbitrarily small change of the kernel: two positive semi-definite kernels within `η` of each
other on the rows with which herding takes different points (so a comparison of coresets has to be by discrepancy and not by points). -/
theorem C100_jump (big : ℝ) {η : ℝ} (hη : 0 < η) : ∃ k k' : ℝ → ℝ → ℝ, IsPSD k ∧ IsPSD k' ∧ ∃ pre : Data 2 ℝ ℝ, (∀ j, pre.weights j = 1) ∧
    (∀ i j, |k (pre.data i) (pre.data j) - k' (pre.data i) (pre.data j)| ≤ η) ∧
    ∃ f f' : Fin 1 → Fin 2, ∃ st st', herdingReduce big k none true (.leaf none) 1 pre none [0] = .ok (⟨fun t => (f t : ℤ), fun _ => 1⟩, st) ∧
      herdingReduce big k' none true (.leaf none) 1 pre none [0] = .ok (⟨fun t => (f' t : ℤ), fun _ => 1⟩, st') ∧
      Disjoint (Set.range f) (Set.range f') := by
  obtain ⟨ε, hε0, hε1, hε2⟩ : ∃ ε : ℝ, 0 < ε ∧ 4 * ε ≤ η ∧ ε ≤ 1 / 2 :=
    ⟨min (η / 4) (1 / 2), lt_min (by linarith) (by norm_num), by linarith [min_le_left (η / 4) (1 / 2)], min_le_right _ _⟩
  have hp : ∀ c : ℝ, IsPSD fun a b : ℝ => (1 + c * a) * (1 + c * b) := fun c => isPSD_rankOne fun a => 1 + c * a
  refine ⟨_, _, hp ε, hp (-ε), ⟨![0, 1], fun _ => 1⟩, fun _ => rfl, fun i j => ?_, fun _ => 1, fun _ => 0, ?_⟩
  · rw [abs_le]
    fin_cases i <;> fin_cases j <;> simp <;> (try constructor) <;> nlinarith
  · have hcount : PosCount (fun _ : Fin 2 => (1 : ℝ)) 1 := by simp [PosCount]
    obtain ⟨st, -, h1, -⟩ := C100_same_points big _ _ (hp ε).1 (hp ε).1 true (.leaf none) (.inl rfl) 1 one_pos (⟨![0, 1], fun _ => 1⟩ : Data 2 ℝ ℝ)
      (fun _ => zero_le_one) hcount [0] (by decide) le_rfl (fun i j => by simp) (fun _ => 1) (fun i => ⟨one_pos, fun _ t ht => absurd ht (by omega)⟩)
      (fun i j _ _ hne => by
        fin_cases i
        fin_cases j
        · simp [avg, Fin.sum_univ_two]; nlinarith
        · exact absurd rfl hne)
    obtain ⟨st', -, h2, -⟩ := C100_same_points big _ _ (hp (-ε)).1 (hp (-ε)).1 true (.leaf none) (.inl rfl) 1 one_pos (⟨![0, 1], fun _ => 1⟩ : Data 2 ℝ ℝ)
      (fun _ => zero_le_one) hcount [0] (by decide) le_rfl (fun i j => by simp) (fun _ => 0) (fun i => ⟨one_pos, fun _ t ht => absurd ht (by omega)⟩)
      (fun i j _ _ hne => by
        fin_cases i
        fin_cases j
        · exact absurd rfl hne
        · simp [avg, Fin.sum_univ_two]; nlinarith)
    refine ⟨st, st', h1, h2, ?_⟩
    simp

/-- **C100.** Squared exponential kernels of two length scales differ by at most `(s/e) ((l/l')² - 1)`, at all points and in all dimensions: a length scale
that is off by one per cent costs less than one per cent of the scale. -/
theorem C100_length_scale {d : ℕ} {l l' s : ℝ} (hl' : 0 < l') (hle : l' ≤ l) (hs : 0 ≤ s) (x y : Vec d) :
    |(KExpr.squaredExponential l s).sem.compute x y - (KExpr.squaredExponential l' s).sem.compute x y|
      ≤ s / Real.exp 1 * ((l / l') ^ 2 - 1) := by
  have hl : 0 < l := hl'.trans_le hle
  have hr : 0 ≤ sqDist x y := sqDist_nonneg x y
  change |s * Real.exp (-sqDist x y / (2 * l ^ 2)) - s * Real.exp (-sqDist x y / (2 * l' ^ 2))| ≤ _
  have hq : 1 ≤ (l / l') ^ 2 := by
    refine one_le_pow₀ ?_
    rwa [one_le_div hl']
  set t := sqDist x y / (2 * l ^ 2) with ht
  have ht0 : 0 ≤ t := by positivity
  have e1 : -sqDist x y / (2 * l ^ 2) = -t := by rw [ht, neg_div]
  have e2 : -sqDist x y / (2 * l' ^ 2) = -t + -(t * ((l / l') ^ 2 - 1)) := by
    rw [ht]
    field_simp
    ring
  rw [e1, e2, Real.exp_add, ← mul_sub, abs_mul, abs_of_nonneg hs]
  have h1 : 1 - t * ((l / l') ^ 2 - 1) ≤ Real.exp (-(t * ((l / l') ^ 2 - 1))) := by
    have := Real.add_one_le_exp (-(t * ((l / l') ^ 2 - 1)))
    linarith
  have h2 : Real.exp (-(t * ((l / l') ^ 2 - 1))) ≤ 1 := by
    rw [Real.exp_le_one_iff]
    have := mul_nonneg ht0 (by linarith : 0 ≤ (l / l') ^ 2 - 1)
    linarith
  have h3 : t * Real.exp (-t) ≤ 1 / Real.exp 1 := by
    rw [le_div_iff₀ (Real.exp_pos _), mul_assoc, ← Real.exp_add]
    have h4 := Real.add_one_le_exp (t - 1)
    have h5 : Real.exp (t - 1) * Real.exp (-t + 1) = 1 := by
      rw [← Real.exp_add]
      simp
    have := mul_le_mul_of_nonneg_right (by linarith : t ≤ Real.exp (t - 1)) (Real.exp_pos (-t + 1)).le
    linarith
  have hE := Real.exp_pos (-t)
  rw [abs_of_nonneg (by nlinarith), show s / Real.exp 1 * ((l / l') ^ 2 - 1) = s * (((l / l') ^ 2 - 1) / Real.exp 1) by ring]
  refine mul_le_mul_of_nonneg_left ?_ hs
  calc Real.exp (-t) - Real.exp (-t) * Real.exp (-(t * ((l / l') ^ 2 - 1)))
      ≤ Real.exp (-t) - Real.exp (-t) * (1 - t * ((l / l') ^ 2 - 1)) := by
        have := mul_le_mul_of_nonneg_left h1 hE.le
        linarith
    _ = t * Real.exp (-t) * ((l / l') ^ 2 - 1) := by ring
    _ ≤ 1 / Real.exp 1 * ((l / l') ^ 2 - 1) := mul_le_mul_of_nonneg_right h3 (by linarith)
    _ = ((l / l') ^ 2 - 1) / Real.exp 1 := by ring

/-- **C100.** So the discrepancies of two weighted data sets for the length scales `l' ≤ l` (say of the median heuristic on a sample and on all rows)
differ by a bound that depends only on the ratio of the length scales. -/
theorem C100_length_scale_mmd (big : ℝ) {d : ℕ} {l l' s : ℝ} (hl' : 0 < l') (hle : l' ≤ l) (hs : 0 ≤ s) {n m : ℕ} (hn : 0 < n) (hm : 0 < m)
    (x : Data n (Vec d) ℝ) (y : Data m (Vec d) ℝ) (hx0 : ∀ i, 0 ≤ x.weights i)
    (hx : 0 < ∑ i, x.weights i) (hy0 : ∀ i, 0 ≤ y.weights i) (hy : 0 < ∑ i, y.weights i) (bs bs' : PyTree (Option ℤ)) (hbs : ValidBlock bs)
    (hbs' : ValidBlock bs') :
    ∃ r r', mmdCompute big (KExpr.squaredExponential l s).sem.compute x y bs = .ok r ∧
      mmdCompute big (KExpr.squaredExponential l' s).sem.compute x y bs' = .ok r' ∧
      |r - r'| ≤ 2 * Real.sqrt (s / Real.exp 1 * ((l / l') ^ 2 - 1)) ∧ |r ^ 2 - r' ^ 2| ≤ 4 * (s / Real.exp 1 * ((l / l') ^ 2 - 1)) :=
  C100_mmd big _ _ hn hm x y hx0 hx hy0 hy (fun _ _ _ _ => C100_length_scale hl' hle hs _ _) (fun _ _ _ _ => C100_length_scale hl' hle hs _ _)
    (fun _ _ _ _ => C100_length_scale hl' hle hs _ _) bs bs' hbs hbs'

/-! ### Cases -/

namespace KernelError

theorem hundredth (a b : ℝ) : |(1 + a * b) - (101 / 100 + a * b)| ≤ 1 / 100 := by
  rw [show (1 + a * b) - (101 / 100 + a * b) = -(1 / 100 : ℝ) by ring]
  norm_num

theorem hundredth_psd : IsPSD fun a b : ℝ => 101 / 100 + a * b := (isPSD_const (by norm_num)).add (isPSD_rankOne fun x : ℝ => x)

end KernelError

example := C100_mean 1000 (fun a b : ℝ => 1 + a * b) (fun a b => 101 / 100 + a * b) (by norm_num) (by norm_num) (⟨![1, 2, -4], ![1, 2, 0]⟩ : Data 3 ℝ ℝ)
  (⟨![1, 3], ![1, 1]⟩ : Data 2 ℝ ℝ) (by intro j; fin_cases j <;> simp) (by simp [Fin.sum_univ_three]; norm_num) (by intro j; fin_cases j <;> simp)
  (by simp [Fin.sum_univ_two]) (fun i j _ _ => hundredth _ _) (.leaf none) (.leaf (some 2)) (.inl rfl) (.inl rfl)

example := C100_mmd 1000 (fun a b : ℝ => 1 + a * b) (fun a b => 101 / 100 + a * b) (by norm_num) (by norm_num) (⟨![1, 2, -4], ![1, 2, 0]⟩ : Data 3 ℝ ℝ)
  (⟨![1, 3], ![1, 1]⟩ : Data 2 ℝ ℝ) (by intro j; fin_cases j <;> simp) (by simp [Fin.sum_univ_three]; norm_num) (by intro j; fin_cases j <;> simp)
  (by simp [Fin.sum_univ_two]) (fun i j _ _ => hundredth _ _) (fun i j _ _ => hundredth _ _) (fun i j _ _ => hundredth _ _)
  (.leaf none) (.leaf none) (.inl rfl) (.inl rfl)

example := C100_ksd 1000 (fun a b : ℝ => 1 + a * b) (fun a b => 101 / 100 + a * b) (by norm_num) (⟨![1, 2, -4], ![1, 2, 0]⟩ : Data 3 ℝ ℝ)
  (by intro j; fin_cases j <;> simp) (by simp [Fin.sum_univ_three]; norm_num) (fun i j _ _ => hundredth _ _) none (some ![1, 0, 2])
  (.leaf none) (.leaf none) (.inl rfl) (.inl rfl)

example := C100_herding 1000 (fun a b : ℝ => 1 + a * b) (fun a b => 101 / 100 + a * b) (fun a b => by ring) (.leaf none) (.inl rfl) 2 (by norm_num)
  (by norm_num) (⟨![1, 2, -4], ![1, 2, 0]⟩ : Data 3 ℝ ℝ) (by intro j; fin_cases j <;> simp) ⟨0, by simp⟩ [0, 1] (by decide) 18
  (by intro j _; fin_cases j <;> norm_num) (fun i j => hundredth _ _)

example := C100_herding_unique 1000 (fun a b : ℝ => 1 + a * b) (fun a b => 101 / 100 + a * b) hundredth_psd (.leaf none) (.leaf none) (.inl rfl) (.inl rfl)
  2 (by norm_num) (⟨![1, 2, -4], ![1, 1, 1]⟩ : Data 3 ℝ ℝ) ⟨1, by norm_num, by intro i; fin_cases i <;> simp⟩
  (by simp [PosCount, Finset.filter_true_of_mem, Fin.forall_fin_succ]) [0, 1] (by decide) 18 (by intro j _; fin_cases j <;> norm_num)
  (fun i j => hundredth _ _)

example (unique : Bool) := C100_stein 1000 (fun a b : ℝ => 1 + a * b) (fun a b => 101 / 100 + a * b) hundredth_psd unique (.leaf none) (.leaf none) (.inl rfl)
  (.inl rfl) 2 (by norm_num) (⟨![1, 2, -4], ![1, 1, 1]⟩ : Data 3 ℝ ℝ) (by intro j; fin_cases j <;> simp)
  (fun _ => ⟨1, by norm_num, by intro i; fin_cases i <;> simp⟩)
  (by simp [PosCount, Finset.filter_true_of_mem, Fin.forall_fin_succ]) [0, 1] (by decide) 18 (by intro j _; fin_cases j <;> norm_num)
  (fun i j => hundredth _ _)

/-- Two of three weighted rows with the kernel that is 1 on equal points, and with the same kernel shifted by a hundredth. -/
example := C100_same_points 1000 (fun a b : ℝ => if a = b then (1 : ℝ) else 0) (fun a b => (if a = b then (1 : ℝ) else 0) + 1 / 100)
  (fun a b => by simp only [eq_comm]) (fun a b => by simp only [eq_comm]) true (.leaf none) (.inl rfl) 2 (by norm_num)
  (⟨![1, 2, 3], ![3, 2, 1]⟩ : Data 3 ℝ ℝ) (by intro j; fin_cases j <;> norm_num)
  (by simp [PosCount, Finset.filter_true_of_mem, Fin.forall_fin_succ]) [0, 1] (by decide) (η := 1 / 100) (by norm_num)
  (fun i j => by rw [sub_add_cancel_left]; norm_num) ![0, 1] (by intro i; fin_cases i <;> simp [Fin.forall_fin_two])
  (by
    intro i j hj hju hne
    fin_cases i <;> fin_cases j <;> simp [Fin.forall_fin_two, avg, Fin.sum_univ_three, Fin.sum_univ_two] at hju hne ⊢ <;> norm_num)

/-- Stein thinning of the same kind: the rows of small norm are taken first. -/
example := C100_same_points_stein 1000 (fun a b : ℝ => a * b) (fun a b => a * b + 1 / 100) true (.leaf none) (.inl rfl) 2 (by norm_num)
  (⟨![3, 1, 2], ![1, 1, 1]⟩ : Data 3 ℝ ℝ) (by simp [PosCount, Finset.filter_true_of_mem, Fin.forall_fin_succ]) [0, 1] (by decide) (η := 1 / 100)
  (by norm_num) (fun i j => by rw [sub_add_cancel_left]; norm_num) ![1, 2] (by intro i; fin_cases i <;> simp [Fin.forall_fin_two])
  (by
    intro i j hj hju hne
    fin_cases i <;> fin_cases j <;> simp [Fin.forall_fin_two, Fin.sum_univ_two] at hju hne ⊢ <;> norm_num)

example (qp : SimplexQP ℝ) (hqp : QPContract qp) := C100_weights (Y := Unit) qp hqp 1000 (fun a b : ℝ => 1 + a * b) (fun a b => 101 / 100 + a * b)
  (fun a b => by ring) (n := 3) (m := 2) (by norm_num) (by norm_num) ⟨⟨![1, 2, 6], fun _ => 1⟩, none⟩ ⟨⟨![1, 6], fun _ => 1⟩, none⟩ rfl rfl (1 / 10)
  (by norm_num) (fun v => hundredth_psd.2 _ _ v) (.leaf none) (.inl rfl) (fun i j => hundredth _ _) (fun i j => hundredth _ _) (fun i j => hundredth _ _)

example := C100_jump 1000 (η := 1 / 10 ^ 9) (by norm_num)

/-- A length scale of 1.01 in place of 1: the kernels differ by less than 0.01 everywhere. -/
example {d : ℕ} (x y : Vec d) : |(KExpr.squaredExponential (101 / 100) 1).sem.compute x y - (KExpr.squaredExponential 1 1).sem.compute x y| ≤ 1 / 100 := by
  refine (C100_length_scale one_pos (by norm_num) zero_le_one x y).trans ?_
  have := Real.add_one_le_exp 1
  rw [div_mul_eq_mul_div, div_le_iff₀ (Real.exp_pos _)]
  have h2 : (2.7 : ℝ) ≤ Real.exp 1 := by linarith [Real.exp_one_gt_d9]
  norm_num
  linarith

example := C100_length_scale_mmd 1000 (d := 1) (l := 2) (l' := 1) (s := 3) one_pos (by norm_num) (by norm_num) (by norm_num) (by norm_num)
  (⟨![![1], ![2], ![-4]], ![1, 2, 0]⟩ : Data 3 (Vec 1) ℝ) (⟨![![1], ![3]], ![1, 1]⟩ : Data 2 (Vec 1) ℝ) (by intro j; fin_cases j <;> simp)
  (by simp [Fin.sum_univ_three]; norm_num) (by intro j; fin_cases j <;> simp) (by simp [Fin.sum_univ_two]) (.leaf none) (.leaf none) (.inl rfl) (.inl rfl)

end Coreax
