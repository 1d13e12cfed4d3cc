import Verif.Props.Nested
import Verif.Props.Stability
import Verif.Props.Median

/-!
# C94: A few bad rows
-/

set_option linter.unusedSectionVars false

namespace Coreax

open Spec Finset Stability
open scoped RealInnerProductSpace

namespace BadRows

universe u

variable {X : Type u} {k : X → X → ℝ}

theorem sqrt_diag {H : Type u} [NormedAddCommGroup H] [InnerProductSpace ℝ H] {φ : X → H} (h : ∀ a b, k a b = ⟪φ a, φ b⟫) (a : X) : ‖φ a‖ = Real.sqrt (k a a) := by
  rw [h, real_inner_self_eq_norm_sq, Real.sqrt_sq (norm_nonneg _)]

theorem cauchy (hk : IsPSD k) (a b : X) : |k a b| ≤ Real.sqrt (k a a) * Real.sqrt (k b b) := by
  obtain ⟨H, _, _, φ, h⟩ := hk.exists_feature
  rw [← sqrt_diag h, ← sqrt_diag h, h]
  exact abs_real_inner_le_norm _ _

theorem kernelDist_le_two (hk : IsPSD k) {R : ℝ} (a b : X) (ha : k a a ≤ R) (hb : k b b ≤ R) : kernelDist k a b ≤ 2 * Real.sqrt R := by
  obtain ⟨H, _, _, φ, h⟩ := hk.exists_feature
  rw [kernelDist_eq h]
  refine (norm_sub_le _ _).trans ?_
  rw [sqrt_diag h, sqrt_diag h, two_mul]
  exact add_le_add (Real.sqrt_le_sqrt ha) (Real.sqrt_le_sqrt hb)

theorem kernelDist_self (a : X) : kernelDist k a a = 0 := by
  rw [kernelDist, show k a a - 2 * k a a + k a a = 0 by ring, Real.sqrt_zero]

/-- The mean kernel distance of two data sets that agree outside some rows. -/
theorem avg_dist_le (hk : IsPSD k) {n : ℕ} {R : ℝ} (x x' : Fin n → X) (w : Fin n → ℝ) (hw : ∀ i, 0 ≤ w i) (bad : Finset (Fin n)) (hx : ∀ i, i ∉ bad → x' i = x i) (hR : ∀ i, i ∈ bad → k (x i) (x i) ≤ R)
    (hR' : ∀ i, i ∈ bad → k (x' i) (x' i) ≤ R) : avg w (fun i => kernelDist k (x i) (x' i)) ≤ 2 * Real.sqrt R * ((∑ i ∈ bad, w i) / ∑ i, w i) := by
  have e : ∑ i, w i * kernelDist k (x i) (x' i) = ∑ i ∈ bad, w i * kernelDist k (x i) (x' i) := by
    symm
    refine sum_subset (subset_univ _) fun i _ hi => ?_
    rw [hx i hi, kernelDist_self, mul_zero]
  rw [avg, e, mul_div_assoc']
  refine div_le_div_of_nonneg_right ?_ (sum_nonneg fun i _ => hw i)
  rw [mul_comm, sum_mul]
  exact sum_le_sum fun i hi => mul_le_mul_of_nonneg_left (kernelDist_le_two hk _ _ (hR i hi) (hR' i hi)) (hw i)

theorem avg_avg {H : Type u} [NormedAddCommGroup H] [InnerProductSpace ℝ H] {φ : X → H} (h : ∀ a b, k a b = ⟪φ a, φ b⟫) {n : ℕ} (x : Fin n → X) (w : Fin n → ℝ) :
    (avg w fun i => avg w fun j => k (x i) (x j)) = ‖meanEmbedding φ x w‖ ^ 2 := by
  have := mmdSq_eq_norm φ h x w (Fin.elim0 : Fin 0 → X) Fin.elim0
  simpa [mmdSq, avg, meanEmbedding] using this

/-- A row far enough out takes the mean embedding as far from anything as one likes. -/
theorem far (hu : ∀ M, ∃ z, M ≤ k z z) {H : Type u} [NormedAddCommGroup H] [InnerProductSpace ℝ H] {φ : X → H} (h : ∀ a b, k a b = ⟪φ a, φ b⟫) {n : ℕ} (x : Fin n → X) (w : Fin n → ℝ) (hx : ∑ i, w i ≠ 0) (i : Fin n) (hi : w i ≠ 0) (e : H)
    (M : ℝ) : ∃ z, M ≤ ‖meanEmbedding φ (Function.update x i z) w - e‖ := by
  obtain ⟨c, hc⟩ : ∃ c, c = w i / ∑ t, w t := ⟨_, rfl⟩
  have hc0 : 0 < |c| := by rw [hc]; exact abs_pos.2 (div_ne_zero hi hx)
  obtain ⟨z, hz⟩ := hu (((|M| + ‖meanEmbedding φ x w - c • φ (x i) - e‖) / |c|) ^ 2)
  refine ⟨z, ?_⟩
  have e1 : meanEmbedding φ (Function.update x i z) w = meanEmbedding φ x w - c • φ (x i) + c • φ z := by
    rw [embedding_eq, embedding_eq, ← add_sum_erase _ _ (mem_univ i), ← add_sum_erase univ (fun j => (w j / ∑ t, w t) • φ (x j)) (mem_univ i), Function.update_self, ← hc]
    have : ∑ j ∈ univ.erase i, (w j / ∑ t, w t) • φ (Function.update x i z j) = ∑ j ∈ univ.erase i, (w j / ∑ t, w t) • φ (x j) :=
      sum_congr rfl fun j hj => by rw [Function.update_of_ne (ne_of_mem_erase hj)]
    rw [this]
    abel
  have h1 : (|M| + ‖meanEmbedding φ x w - c • φ (x i) - e‖) / |c| ≤ ‖φ z‖ := by
    rw [sqrt_diag h]
    exact Real.le_sqrt_of_sq_le hz
  rw [div_le_iff₀ hc0] at h1
  have h2 : ‖c • φ z‖ ≤ ‖meanEmbedding φ (Function.update x i z) w - e‖ + ‖meanEmbedding φ x w - c • φ (x i) - e‖ := by
    have : c • φ z = (meanEmbedding φ (Function.update x i z) w - e) - (meanEmbedding φ x w - c • φ (x i) - e) := by rw [e1]; abel
    rw [this]
    exact norm_sub_le _ _
  rw [norm_smul, Real.norm_eq_abs] at h2
  have := le_abs_self M
  linarith

theorem arith {q r i T A B : ℝ} (hi : 0 ≤ i) (hT : i + 1 ≤ T) (hr : 0 ≤ r) (hq : 2 * T * r < q) (h1 : q ^ 2 - 2 * (i * (q * r)) ≤ A) (h2 : B ≤ r ^ 2 + 2 * (i * (r * r))) (h3 : A ≤ B) : False := by
  have h4 : 0 < q := lt_of_le_of_lt (by have : 0 ≤ T := by linarith
                                        positivity) hq
  have h5 : 0 ≤ (T - i - 1) * r := mul_nonneg (by linarith) hr
  have h6 : 2 * r * q + 2 * i * r * q ≤ 2 * T * r * q := by nlinarith [mul_nonneg h5 h4.le]
  have h7 : 2 * T * r * q < q * q := by nlinarith
  have h8 : r * (2 * T * r) ≤ r * q := mul_le_mul_of_nonneg_left hq.le hr
  have h9 : 2 * r * r * (i + 1) ≤ 2 * r * r * T := mul_le_mul_of_nonneg_left hT (by positivity)
  nlinarith [mul_nonneg hi (mul_self_nonneg r), mul_self_nonneg r]

end BadRows

section
universe u
variable {X : Type u} [Zero X] {n m : ℕ}

/-- **C94.** Replacing some rows by arbitrary others changes the maximum mean discrepancy to anything by at most `2 √R` times the share of these rows in the weight, for every positive semi-definite kernel with `k(a, a) ≤ R` on the rows replaced and
their replacements. -/
theorem C94_mmd (big : ℝ) (k : X → X → ℝ) (hk : IsPSD k) (hn : 0 < n) (hm : 0 < m) {R : ℝ} (x x' : Fin n → X) (w : Fin n → ℝ) (y : Fin m → X) (v : Fin m → ℝ) (hw : ∀ i, 0 ≤ w i) (hv : ∀ i, 0 ≤ v i) (hx : ∑ i, w i ≠ 0) (hy : ∑ i, v i ≠ 0)
    (bad : Finset (Fin n)) (hb : ∀ i, i ∉ bad → x' i = x i) (hR : ∀ i, i ∈ bad → k (x i) (x i) ≤ R) (hR' : ∀ i, i ∈ bad → k (x' i) (x' i) ≤ R) (bs : PyTree (Option ℤ)) (hbs : ValidBlock bs) :
    ∃ r r', mmdCompute big k ⟨x, w⟩ ⟨y, v⟩ bs = .ok r ∧ mmdCompute big k ⟨x', w⟩ ⟨y, v⟩ bs = .ok r' ∧ |r - r'| ≤ 2 * Real.sqrt R * ((∑ i ∈ bad, w i) / ∑ i, w i) := by
  obtain ⟨r, r', h1, h2, h3⟩ := C83_move big k hk hn hm x x' w y y v hw hv hx hy bs hbs
  refine ⟨r, r', h1, h2, h3.trans ?_⟩
  have h4 : avg v (fun j => kernelDist k (y j) (y j)) = 0 := by simp [avg, BadRows.kernelDist_self]
  rw [h4, add_zero]
  exact BadRows.avg_dist_le hk x x' w hw bad hb hR hR'

example (z : Vec 2) := C94_mmd 1000 (KExpr.squaredExponential 2 1 : KExpr 2).sem.compute (C08_psd _ (SteinStrict.check_squaredExponential two_pos one_pos) trivial) (R := 1) (by norm_num) (by norm_num)
  (![![0, 0], ![1, 2], ![3, 4]]) (![![0, 0], ![1, 2], z]) (![1, 2, 1]) (![![1, 1]]) (![1]) (by intro i; fin_cases i <;> simp) (by simp) (by simp [Fin.sum_univ_three]; norm_num) (by simp) {2}
  (by intro i hi; fin_cases i <;> simp at hi ⊢) (by intro i _; simp [KExpr.sem, squaredExponentialSem, sqDist]) (by intro i _; simp [KExpr.sem, squaredExponentialSem, sqDist]) (.leaf none) (Or.inl rfl)

/-- **C94.** The bound is attained: with the product as kernel, rows 1 and some of them replaced by -1, the discrepancy to a row 1 goes from zero to twice the share of the rows replaced. -/
theorem C94_sharp (big : ℝ) (hn : 0 < n) (bad : Finset (Fin n)) (bs : PyTree (Option ℤ)) (hbs : ValidBlock bs) :
    mmdCompute big (fun a b : ℝ => a * b) ⟨fun _ : Fin n => 1, fun _ => 1⟩ ⟨fun _ : Fin 1 => 1, fun _ => 1⟩ bs = .ok 0 ∧
      mmdCompute big (fun a b : ℝ => a * b) ⟨fun i : Fin n => if i ∈ bad then -1 else 1, fun _ => 1⟩ ⟨fun _ : Fin 1 => 1, fun _ => 1⟩ bs = .ok (2 * (bad.card / n)) := by
  have hn' : (n : ℝ) ≠ 0 := by positivity
  constructor
  · rw [C07_compute big _ hn one_pos _ _ (by simpa using hn') (by simp) bs hbs]
    simp [mmdSq, avg, hn']
    norm_num
  · rw [C07_compute big _ hn one_pos _ _ (by simpa using hn') (by simp) bs hbs]
    have e : ∑ i : Fin n, (if i ∈ bad then (-1 : ℝ) else 1) = n - 2 * bad.card := by
      have : ∀ i : Fin n, (if i ∈ bad then (-1 : ℝ) else 1) = 1 - 2 * if i ∈ bad then 1 else 0 := fun i => by split_ifs <;> norm_num
      simp only [this, sum_sub_distrib, ← mul_sum]
      simp
    have e2 : mmdSq (fun a b : ℝ => a * b) (fun i : Fin n => if i ∈ bad then (-1 : ℝ) else 1) (fun _ => 1) (fun _ : Fin 1 => 1) (fun _ => 1) = (2 * (bad.card / n)) ^ 2 := by
      simp only [mmdSq, avg, one_mul, sum_const, card_univ, Fintype.card_fin, nsmul_eq_mul, mul_one, ← mul_sum, e, Nat.cast_one, div_one]
      rw [← sum_div, ← sum_mul, e]
      field_simp
      ring
    simp only [e2]
    rw [max_eq_right (sq_nonneg _), Real.sqrt_sq (by positivity)]

example := C94_sharp (n := 7) 1000 (by norm_num) {1, 4} (.leaf none) (Or.inl rfl)

/-- **C94.** A herding coreset of data with some arbitrary rows, against the data without them being arbitrary. -/
theorem C94_herding [NeZero n] (big : ℝ) (k : X → X → ℝ) (hk : IsPSD k) {R : ℝ} (hR : ∀ a, k a a ≤ R) (x x' : Fin n → X) (bad : Finset (Fin n)) (hb : ∀ i, i ∉ bad → x' i = x i) (bs : PyTree (Option ℤ)) (hbs : ValidBlock bs) (size : ℕ)
    (hsize : 0 < size) (hle : size ≤ n) (ord : List (Fin (size + (size - size)))) (hord : ∀ t, t ∈ ord) :
    ∃ (f : Fin size → Fin n) (st : List ℝ) (r : ℝ), herdingReduce big k none true bs size ⟨x', fun _ => 1⟩ none ord = .ok (⟨fun t => (f t : ℤ), fun _ => 1⟩, st) ∧
      mmdCompute big k ⟨x, fun _ => 1⟩ ⟨fun t => x' (f t), fun _ => 1⟩ bs = .ok r ∧ r ≤ Real.sqrt (R / size) + 2 * Real.sqrt R * (bad.card / n) := by
  have hn := NeZero.pos n
  have hn' : (n : ℝ) ≠ 0 := by positivity
  have hs' : (size : ℝ) ≠ 0 := by positivity
  obtain ⟨f, st, h1, h2⟩ := C48_herding_rate_unique big k hk.1 bs hbs size hsize ⟨x', fun _ => 1⟩ (fun c => hk.2 n x' c)
    ⟨1, by simp⟩ (by simp [PosCount, hle]) none (by simp) ord hord R (fun j _ => hR _)
  obtain ⟨r, r', h3, h4, h5⟩ := C94_mmd big k hk hn hsize (R := R) x x' (fun _ => 1) (fun t => x' (f t)) (fun _ => 1) (by simp) (by simp) (by simpa using hn') (by simpa using hs') bad hb (fun _ _ => hR _) (fun _ _ => hR _) bs hbs
  refine ⟨f, st, r, h1, h3, ?_⟩
  have h6 : r' ≤ Real.sqrt (R / size) := by
    rw [C07_compute big _ hn hsize _ _ (by simpa using hn') (by simpa using hs') bs hbs] at h4
    injection h4 with h4
    rw [← h4]
    have hR0 : 0 ≤ R := by
      have := hk.2 1 (fun _ => x 0) (fun _ => 1)
      simp at this
      exact this.trans (hR _)
    refine Real.sqrt_le_sqrt (max_le (by positivity) (h2.trans ?_))
    have h7 : 0 ≤ avg (fun _ : Fin n => (1 : ℝ)) fun i => avg (fun _ : Fin n => (1 : ℝ)) fun j => k (x' i) (x' j) := by
      have := hk.2 n x' fun _ => 1
      simp only [avg, one_mul, ← sum_div, sum_const, card_univ, Fintype.card_fin, nsmul_eq_mul, mul_one] at this ⊢
      positivity
    have h8 : (0 : ℝ) ≤ size := Nat.cast_nonneg _
    exact div_le_div_of_nonneg_right (by linarith) h8
  have h9 := (abs_le.1 h5).2
  simp only [sum_const, card_univ, Fintype.card_fin, nsmul_eq_mul, mul_one] at h9
  linarith

example (z : Vec 2) (ord : List (Fin (2 + (2 - 2)))) (hord : ∀ t, t ∈ ord) := C94_herding (n := 3) 1000 (KExpr.squaredExponential 2 1 : KExpr 2).sem.compute (C08_psd _ (SteinStrict.check_squaredExponential two_pos one_pos) trivial) (R := 1)
  (fun a => by simp [KExpr.sem, squaredExponentialSem, sqDist]) (![![0, 0], ![1, 2], ![3, 4]]) (![![0, 0], ![1, 2], z]) {2} (by intro i hi; fin_cases i <;> simp at hi ⊢) (.leaf none) (Or.inl rfl) 2 (by norm_num) (by norm_num) ord hord

/-- **C94, boundary.** Where the kernel is unbounded on the diagonal one row is enough to move the discrepancy to anything as far as one likes, however small its weight. -/
theorem C94_unbounded (big : ℝ) (k : X → X → ℝ) (hk : IsPSD k) (hu : ∀ M, ∃ z, M ≤ k z z) (hn : 0 < n) (hm : 0 < m) (x : Fin n → X) (w : Fin n → ℝ) (hx : ∑ i, w i ≠ 0) (y : Data m X ℝ) (hy : ∑ i, y.weights i ≠ 0) (i : Fin n) (hi : w i ≠ 0)
    (bs : PyTree (Option ℤ)) (hbs : ValidBlock bs) (M : ℝ) : ∃ z r, mmdCompute big k ⟨Function.update x i z, w⟩ y bs = .ok r ∧ M ≤ r := by
  obtain ⟨H, _, _, φ, h⟩ := hk.exists_feature
  obtain ⟨z, hz⟩ := BadRows.far hu h x w hx i hi (meanEmbedding φ y.data y.weights) M
  exact ⟨z, _, (C07_rkhs_distance big k hk hn hm ⟨Function.update x i z, w⟩ y hx hy bs hbs).2 H _ _ φ h, hz⟩

/-- **C94, boundary.** The same for the kernel Stein discrepancy. -/
theorem C94_ksd (big : ℝ) (k : X → X → ℝ) (hk : IsPSD k) (hu : ∀ M, ∃ z, M ≤ k z z) (hn : 0 < n) (x : Fin n → X) (w : Fin n → ℝ) (hx : ∑ i, w i ≠ 0) (i : Fin n) (hi : w i ≠ 0)
    (bs : PyTree (Option ℤ)) (hbs : ValidBlock bs) (M : ℝ) : ∃ z r, ksdCompute big k ⟨Function.update x i z, w⟩ bs none none = .ok r ∧ M ≤ r := by
  obtain ⟨H, _, _, φ, h⟩ := hk.exists_feature
  obtain ⟨z, hz⟩ := BadRows.far hu h x w hx i hi 0 M
  refine ⟨z, _, C35_ksd_value big k hn _ hx bs hbs none none, ?_⟩
  simp only [add_zero, sub_zero]
  rw [BadRows.avg_avg h, max_eq_right (sq_nonneg _), Real.sqrt_sq (norm_nonneg _)]
  rwa [sub_zero] at hz

/-- The Stein kernel of a standard normal distribution with the squared exponential as base kernel is unbounded on the diagonal. -/
theorem BadRows.stein_unbounded {d : ℕ} (hd : 0 < d) {l : ℝ} (hl : 0 < l) (M : ℝ) : ∃ z : Vec d, M ≤ (KExpr.stein (.squaredExponential l 1) fun x => -x : KExpr d).sem.compute z z := by
  refine ⟨fun _ => 1 + |M|, ?_⟩
  have h1 : ∑ _i : Fin d, (1 + |M|) * (1 + |M|) = d * ((1 + |M|) * (1 + |M|)) := by simp
  have hd' : (1 : ℝ) ≤ d := by exact_mod_cast hd
  have h2 : 0 ≤ 1 / l ^ 2 * (d : ℝ) := by positivity
  have h3 := le_abs_self M
  have h4 := abs_nonneg M
  simp only [KExpr.sem, KSem.ofCompute, steinCompute, squaredExponentialSem, sqDist, vdot, Pi.neg_apply, sub_self, zero_div, zero_mul, mul_zero, neg_zero, sum_const_zero, Real.exp_zero, mul_one, one_mul, sub_zero, add_zero, neg_mul_neg, h1]
  nlinarith

example := C94_ksd 1000 (KExpr.stein (.squaredExponential 2 1) fun x => -x : KExpr 2).sem.compute (C35_psd _ _ (SteinStrict.check_squaredExponential two_pos one_pos) trivial trivial) (BadRows.stein_unbounded two_pos two_pos) (n := 3) (by norm_num)
  (![![0, 0], ![1, 2], ![3, 4]]) (![1, 2, 1]) (by simp [Fin.sum_univ_three]; norm_num) 2 (by simp) (.leaf none) (Or.inl rfl)

example := C94_unbounded 1000 (KExpr.stein (.squaredExponential 2 1) fun x => -x : KExpr 2).sem.compute (C35_psd _ _ (SteinStrict.check_squaredExponential two_pos one_pos) trivial trivial) (BadRows.stein_unbounded two_pos two_pos) (n := 3) (m := 1) (by norm_num)
  (by norm_num) (![![0, 0], ![1, 2], ![3, 4]]) (![1, 2, 1]) (by simp [Fin.sum_univ_three]; norm_num) ⟨fun _ => ![1, 1], fun _ => 1⟩ (by simp) 2 (by simp) (.leaf none) (Or.inl rfl)

/-- **C94.** Stein thinning leaves out rows that are bad enough: with `k(a, a) ≤ R` on the good rows and `k(a, a) > (2 size)² R` on the bad ones it returns good rows only, if there are enough of them. -/
theorem C94_stein [NeZero n] (big : ℝ) (k : X → X → ℝ) (hk : IsPSD k) {R : ℝ} (unique : Bool) (bs : PyTree (Option ℤ)) (hbs : ValidBlock bs) (size : ℕ) (hsize : 0 < size) (pre : Data n X ℝ) (bad : Finset (Fin n))
    (hR : ∀ j, j ∉ bad → k (pre.data j) (pre.data j) ≤ R) (hb : ∀ j, j ∈ bad → (2 * size) ^ 2 * R < k (pre.data j) (pre.data j)) (hpos : size ≤ (univ.filter fun j => 0 < pre.weights j ∧ j ∉ bad).card)
    (ord : List (Fin (size + (size - size)))) (hord : ∀ t, t ∈ ord) :
    ∃ f : Fin size → Fin n, steinReduce big k unique bs size pre none ord = .ok ⟨fun t => (f t : ℤ), fun _ => 1⟩ ∧ ∀ t, f t ∉ bad := by
  obtain ⟨f, h1, h2, -⟩ := C15_reduce_greedy big k unique bs hbs size hsize pre none ord hord (by
    unfold PosCount
    exact hpos.trans (card_le_card fun j => by simp; tauto))
  refine ⟨f, h1, ?_⟩
  have key : ∀ N (i : Fin size), (i : ℕ) < N → f i ∉ bad := by
    intro N
    induction N with
    | zero => intro i hi; omega
    | succ N ih =>
      intro i hi hbad
      have hgood : ∀ t, t < i → f t ∉ bad := fun t ht => ih t (by rw [Fin.lt_def] at ht; omega)
      obtain ⟨j, hj, hj2, hj3⟩ : ∃ j, j ∉ bad ∧ 0 < pre.weights j ∧ ∀ t, t < i → f t ≠ j := by
        by_contra hc
        push Not at hc
        have hsub : (univ.filter fun j => 0 < pre.weights j ∧ j ∉ bad) ⊆ (univ.filter fun t : Fin size => t < i).image f := by
          intro j hj
          simp only [mem_filter, mem_univ, true_and] at hj
          obtain ⟨t, ht, rfl⟩ := hc j hj.2 hj.1
          exact mem_image_of_mem _ (by simpa using ht)
        have h3 := (card_le_card hsub).trans card_image_le
        have h4 : (univ.filter fun t : Fin size => t < i).card = i := by
          rw [show (univ.filter fun t : Fin size => t < i) = Finset.Iio i by ext; simp, Fin.card_Iio]
        have := i.2
        omega
      have h3 := ((h2 i).2 j ⟨hj2, fun _ => hj3⟩).1
      have h14 : k (pre.data (f i)) (pre.data (f i)) + 2 * (∑ t, if t < i then k (pre.data (f i)) (pre.data (f t)) else 0) ≤ k (pre.data j) (pre.data j) + 2 * ∑ t, if t < i then k (pre.data j) (pre.data (f t)) else 0 := by
        simpa [regLap, regLogp] using h3
      have hr := Real.sqrt_nonneg R
      have hR0 : 0 ≤ R := by
        have := hk.2 1 (fun _ => pre.data j) fun _ => 1
        simp at this
        exact this.trans (hR j hj)
      have hcs : ∀ a : X, ∀ t, t < i → |k a (pre.data (f t))| ≤ Real.sqrt (k a a) * Real.sqrt R := fun a t ht =>
        (BadRows.cauchy hk _ _).trans (mul_le_mul_of_nonneg_left (Real.sqrt_le_sqrt (hR _ (hgood t ht))) (Real.sqrt_nonneg _))
      have hsum : ∀ a : X, |∑ t, if t < i then k a (pre.data (f t)) else 0| ≤ i * (Real.sqrt (k a a) * Real.sqrt R) := by
        intro a
        refine (abs_sum_le_sum_abs _ _).trans ?_
        have : ∀ t : Fin size, |if t < i then k a (pre.data (f t)) else 0| ≤ if t < i then Real.sqrt (k a a) * Real.sqrt R else 0 := by
          intro t
          split_ifs with ht
          · exact hcs a t ht
          · simp
        refine (sum_le_sum fun t _ => this t).trans_eq ?_
        rw [← sum_filter, show (univ.filter fun t : Fin size => t < i) = Finset.Iio i by ext; simp, sum_const, Fin.card_Iio, nsmul_eq_mul]
      have h4 := (abs_le.1 (hsum (pre.data (f i)))).1
      have h5 := (abs_le.1 (hsum (pre.data j))).2
      have h6 : Real.sqrt (k (pre.data j) (pre.data j)) ≤ Real.sqrt R := Real.sqrt_le_sqrt (hR j hj)
      have h7 := hb _ hbad
      have hq : 0 ≤ k (pre.data (f i)) (pre.data (f i)) := le_trans (by positivity) h7.le
      have h8 : 2 * size * Real.sqrt R < Real.sqrt (k (pre.data (f i)) (pre.data (f i))) := by
        rw [← Real.sqrt_sq (show (0 : ℝ) ≤ 2 * size by positivity), ← Real.sqrt_mul (sq_nonneg _)]
        exact Real.sqrt_lt_sqrt (by positivity) h7
      have h9 : (i : ℝ) + 1 ≤ size := by exact_mod_cast i.2
      have h10 := Real.sq_sqrt hq
      have h11 := Real.sq_sqrt hR0
      have h12 := hR j hj
      have h13 : (i : ℝ) * (Real.sqrt (k (pre.data j) (pre.data j)) * Real.sqrt R) ≤ i * (Real.sqrt R * Real.sqrt R) := by gcongr
      exact BadRows.arith (Nat.cast_nonneg i) h9 hr h8 (by linarith) (by linarith) h14
  exact fun t => key _ t (Nat.lt_succ_self _)

example (z : Vec 2) (hz : 10000 < (KExpr.stein (.squaredExponential 2 1) fun x => -x : KExpr 2).sem.compute z z) (ord : List (Fin (2 + (2 - 2)))) (hord : ∀ t, t ∈ ord) := C94_stein (n := 3) 1000
  (KExpr.stein (.squaredExponential 2 1) fun x => -x : KExpr 2).sem.compute (C35_psd _ _ (SteinStrict.check_squaredExponential two_pos one_pos) trivial trivial) (R := 6) true (.leaf none) (Or.inl rfl) 2 (by norm_num)
  (Data.ofArray ![![0, 0], ![1, 2], z]) {2} (by
    intro j hj
    fin_cases j
    · norm_num [Data.ofArray, KExpr.sem, KSem.ofCompute, steinCompute, squaredExponentialSem, sqDist, vdot]
    · norm_num [Data.ofArray, KExpr.sem, KSem.ofCompute, steinCompute, squaredExponentialSem, sqDist, vdot]
    · simp at hj) (by
    intro j hj
    obtain rfl : j = 2 := by simpa using hj
    exact lt_trans (by norm_num) hz) (by
    have : (univ.filter fun j : Fin 3 => 0 < (Data.ofArray (K := ℝ) ![![0, 0], ![1, 2], z] : Data 3 (Vec 2) ℝ).weights j ∧ j ∉ ({2} : Finset (Fin 3))) = {0, 1} := by
      ext j; fin_cases j <;> simp [Data.ofArray]
    rw [this]; simp) ord hord

end

section
variable {n d : ℕ}

namespace BadRows

open Classical in
/-- Pairs that are not among the good rows, counted. -/
theorem pairs_outside {X : Type*} (x : Fin n → X) (G : Finset (Fin n)) (p : X → X → Prop) (h : ∀ i ∈ G, ∀ j ∈ G, i ≠ j → ¬ p (x i) (x j)) : pairCount x p + G.card * (G.card - 1) ≤ n * (n - 1) := by
  have e : (G.offDiag).card = G.card * (G.card - 1) := by rw [offDiag_card, Nat.mul_sub_one]
  have e2 : (univ : Finset (Fin n)).offDiag.card = n * (n - 1) := by rw [offDiag_card, card_univ, Fintype.card_fin, Nat.mul_sub_one]
  rw [← e, ← e2]
  unfold pairCount
  rw [← card_union_of_disjoint]
  · refine card_le_card fun q hq => ?_
    simp only [mem_union, mem_filter, mem_univ, true_and, mem_offDiag] at hq ⊢
    tauto
  · rw [disjoint_left]
    intro q hq hq2
    simp only [mem_filter, mem_univ, true_and, mem_offDiag] at hq hq2
    exact h _ hq2.1 _ hq2.2.1 hq2.2.2 hq.2

open Classical in
/-- Pairs among some rows, counted. -/
theorem pairs_inside {X : Type*} (x : Fin n → X) (G : Finset (Fin n)) (p : X → X → Prop) (h : ∀ i ∈ G, ∀ j ∈ G, i ≠ j → p (x i) (x j)) : G.card * (G.card - 1) ≤ pairCount x p := by
  have e : (G.offDiag).card = G.card * (G.card - 1) := by rw [offDiag_card, Nat.mul_sub_one]
  rw [← e]
  unfold pairCount
  refine card_le_card fun q hq => ?_
  simp only [mem_filter, mem_univ, true_and, mem_offDiag] at hq ⊢
  exact ⟨hq.2.2, h _ hq.1 _ hq.2.1 hq.2.2⟩

theorem mono {X : Type*} (x : Fin n → X) {p q : X → X → Prop} (h : ∀ a b, p a b → q a b) : pairCount x p ≤ pairCount x q := by
  classical
  unfold pairCount
  refine card_le_card fun r hr => ?_
  simp only [mem_filter, mem_univ, true_and] at hr ⊢
  exact ⟨hr.1, h _ _ hr.2⟩

end BadRows

/-- **C94.** The median heuristic does not care about the other rows as long as more than half of the pairs are pairs of good rows (up to about 29 % of bad rows): the length scale stays between the smallest and the largest that the good rows
allow. -/
theorem C94_median (x : Fin n → Vec d) (G : Finset (Fin n)) (lo hi : ℝ) (h : ∀ i ∈ G, ∀ j ∈ G, i ≠ j → lo ≤ ∑ t, (x i t - x j t) ^ 2 ∧ ∑ t, (x i t - x j t) ^ 2 ≤ hi) (hG : n * (n - 1) < 2 * (G.card * (G.card - 1))) :
    ∃ v, medianHeuristic x = some v ∧ Real.sqrt (lo / 2) ≤ v ∧ v ≤ Real.sqrt (hi / 2) := by
  have hn : 2 ≤ n := by
    by_contra hc
    have h1 : G.card ≤ n := by simpa using card_le_univ G
    have h2 : G.card - 1 = 0 := by omega
    rw [h2] at hG
    simp at hG
  obtain ⟨m, ⟨a, b, h1, h2, h3⟩, h4⟩ := C43_is_median x hn
  refine ⟨_, h4, ?_⟩
  have ha := (h1 a).2 ⟨le_rfl, h2⟩
  have hb := (h1 b).2 ⟨h2, le_rfl⟩
  have ha' : lo ≤ a := by
    by_contra hc
    have := BadRows.pairs_outside x G (fun p q => ∑ i, (p i - q i) ^ 2 ≤ a) fun i hi j hj hij => by
      have := (h i hi j hj hij).1
      linarith
    have h5 := ha.1
    rw [pairCount_true] at h5
    omega
  have hb' : b ≤ hi := by
    by_contra hc
    have := BadRows.pairs_outside x G (fun p q => b ≤ ∑ i, (p i - q i) ^ 2) fun i hi j hj hij => by
      have := (h i hi j hj hij).2
      linarith
    have h5 := hb.2
    rw [pairCount_true] at h5
    omega
  exact ⟨Real.sqrt_le_sqrt (by linarith), Real.sqrt_le_sqrt (by linarith)⟩

example (z : Vec 1) := C94_median (![![0], ![1], ![3], ![2], z] : Fin 5 → Vec 1) {0, 1, 2, 3} 1 9 (by
    intro i hi j hj hij
    fin_cases i <;> fin_cases j <;> first | (simp at hi hj hij; done) | norm_num) (by decide)

/-- **C94.** With fewer good rows than that the others can make the length scale as large as they like, whatever the good rows. -/
theorem C94_median_breakdown (hd : 0 < d) (hn : 2 ≤ n) (x : Fin n → Vec d) (G : Finset (Fin n)) (hG : 2 * (G.card * (G.card - 1)) ≤ n * (n - 1)) (M : ℝ) :
    ∃ x' : Fin n → Vec d, (∀ i ∈ G, x' i = x i) ∧ ∃ v, medianHeuristic x' = some v ∧ M ≤ v := by
  classical
  obtain ⟨B, hB⟩ : ∃ B, ∀ i, |x i ⟨0, hd⟩| ≤ B := ⟨∑ i, |x i ⟨0, hd⟩|, fun i => single_le_sum (f := fun i => |x i ⟨0, hd⟩|) (fun _ _ => abs_nonneg _) (mem_univ i)⟩
  have hB0 : 0 ≤ B := (abs_nonneg _).trans (hB ⟨0, by omega⟩)
  obtain ⟨L, hL⟩ : ∃ L, L = 2 * |M| + 1 := ⟨_, rfl⟩
  have hL0 : 0 < L := by have := abs_nonneg M; linarith
  obtain ⟨x', hx'⟩ : ∃ x' : Fin n → Vec d, x' = fun i => if i ∈ G then x i else fun _ => (B + L) * ((i : ℕ) + 1) := ⟨_, rfl⟩
  have hfar : ∀ i j, i ≠ j → ¬ (i ∈ G ∧ j ∈ G) → L ≤ |x' i ⟨0, hd⟩ - x' j ⟨0, hd⟩| := by
    have h1 : ∀ i j, i ∈ G → j ∉ G → L ≤ x' j ⟨0, hd⟩ - x' i ⟨0, hd⟩ := by
      intro i j hi hj
      rw [hx']
      simp only [if_pos hi, if_neg hj]
      have := (abs_le.1 (hB i)).2
      have : (0 : ℝ) ≤ (j : ℕ) := Nat.cast_nonneg _
      nlinarith
    intro i j hij hg
    by_cases hi : i ∈ G
    · rw [abs_sub_comm]
      exact (h1 i j hi fun hj => hg ⟨hi, hj⟩).trans (le_abs_self _)
    · by_cases hj : j ∈ G
      · exact (h1 j i hj hi).trans (le_abs_self _)
      · rw [hx']
        simp only [if_neg hi, if_neg hj]
        rw [← mul_sub, abs_mul, abs_of_pos (by linarith : 0 < B + L), add_sub_add_right_eq_sub]
        have h2 : (1 : ℝ) ≤ |((i : ℕ) : ℝ) - (j : ℕ)| := by
          have : ((i : ℕ) : ℤ) - (j : ℕ) ≠ 0 := fun h => hij (Fin.ext (by omega))
          exact_mod_cast Int.one_le_abs this
        nlinarith
  refine ⟨x', fun i hi => by rw [hx']; exact if_pos hi, ?_⟩
  obtain ⟨m, ⟨a, b, h1, h2, h3⟩, h4⟩ := C43_is_median x' hn
  refine ⟨_, h4, ?_⟩
  have ha := (h1 a).2 ⟨le_rfl, h2⟩
  have hb := (h1 b).2 ⟨h2, le_rfl⟩
  have hN : 0 < n * (n - 1) := Nat.mul_pos (by omega) (by omega)
  have ha0 : 0 ≤ a := by
    by_contra hc
    have := BadRows.pairs_outside x' univ (fun p q => ∑ i, (p i - q i) ^ 2 ≤ a) fun i _ j _ _ => by
      have : 0 ≤ ∑ t, (x' i t - x' j t) ^ 2 := sum_nonneg fun _ _ => sq_nonneg _
      linarith
    have h5 := ha.1
    rw [pairCount_true] at h5
    simp only [card_univ, Fintype.card_fin] at this
    omega
  have hbL : L ^ 2 ≤ b := by
    by_contra hc
    push Not at hc
    have h5 : IsMedianDistance x' (L ^ 2) := by
      refine ⟨hb.1.trans (Nat.mul_le_mul_left 2 (BadRows.mono x' fun p q h => h.trans hc.le)), ?_⟩
      rw [pairCount_true]
      have h6 : n * (n - 1) ≤ pairCount x' (fun p q => L ^ 2 ≤ ∑ i, (p i - q i) ^ 2) + G.card * (G.card - 1) := by
        have e : (G.offDiag).card = G.card * (G.card - 1) := by rw [offDiag_card, Nat.mul_sub_one]
        have e2 : (univ : Finset (Fin n)).offDiag.card = n * (n - 1) := by rw [offDiag_card, card_univ, Fintype.card_fin, Nat.mul_sub_one]
        rw [← e, ← e2]
        unfold pairCount
        refine le_trans (card_le_card fun q hq => ?_) (card_union_le _ _)
        simp only [mem_union, mem_filter, mem_univ, true_and, mem_offDiag] at hq ⊢
        by_cases hg : q.1 ∈ G ∧ q.2 ∈ G
        · exact Or.inr ⟨hg.1, hg.2, hq⟩
        · refine Or.inl ⟨hq, ?_⟩
          have h7 := hfar _ _ hq hg
          have h8 : L ^ 2 ≤ (x' q.1 ⟨0, hd⟩ - x' q.2 ⟨0, hd⟩) ^ 2 := by rw [← sq_abs (x' q.1 _ - _)]; exact pow_le_pow_left₀ hL0.le h7 2
          exact h8.trans (single_le_sum (f := fun t => (x' q.1 t - x' q.2 t) ^ 2) (fun _ _ => sq_nonneg _) (mem_univ _))
      omega
    exact absurd ((h1 _).1 h5).2 (not_le.2 hc)
  refine (le_abs_self M).trans (Real.le_sqrt_of_sq_le ?_)
  have := abs_nonneg M
  nlinarith

example := C94_median_breakdown (d := 2) (by norm_num) (n := 4) (by norm_num) (fun i _ => i) {0, 1, 2} (by decide)

/-- **C94.** A good half of the rows, put on top of a single good one, makes the length scale zero, and the kernel is refused. -/
theorem C94_median_collapse (x : Fin n → Vec d) (G : Finset (Fin n)) (g : Fin n) (hg : g ∈ G) (hG : n * (n - 1) < 2 * ((n - G.card + 1) * (n - G.card))) :
    ∃ x' : Fin n → Vec d, (∀ i ∈ G, x' i = x i) ∧ medianHeuristic x' = some 0 ∧ KExpr.check (.squaredExponential 0 1 : KExpr d) = .error .valueError := by
  classical
  obtain ⟨x', hx'⟩ : ∃ x' : Fin n → Vec d, x' = fun i => if i ∈ G then x i else x g := ⟨_, rfl⟩
  have h1 := BadRows.pairs_inside x' (insert g Gᶜ) (fun a b => a = b) fun i hi j hj _ => by
    have h2 : ∀ i ∈ insert g Gᶜ, x' i = x g := by
      intro i hi
      rw [hx']
      rcases mem_insert.1 hi with rfl | hi
      · exact if_pos hg
      · exact if_neg (mem_compl.1 hi)
    rw [h2 i hi, h2 j hj]
  rw [card_insert_of_notMem (by simpa using hg), card_compl, Fintype.card_fin, Nat.add_sub_cancel] at h1
  have hn : 2 ≤ n := by
    by_contra hc
    have h3 : 0 < G.card := card_pos.2 ⟨g, hg⟩
    have h4 : n - G.card = 0 := by omega
    simp [h4] at hG
  have h5 : n * (n - 1) < 2 * pairCount x' (fun a b => a = b) := by omega
  have h6 := (C43_zero_iff x').2 ⟨hn, h5⟩
  exact ⟨x', fun i hi => by rw [hx']; exact if_pos hi, h6, (C43_kernel_construction x' 0 h6).2 h5⟩

example := C94_median_collapse (d := 2) (n := 10) (fun i _ => i) {0, 1, 2} 1 (by decide) (by decide)

/-- **C94, boundary.** With the linear kernel an outlier is what herding selects first. -/
theorem C94_herding_linear [NeZero n] (hd : 0 < d) (big : ℝ) {s c : ℝ} (hs : 0 < s) (x : Fin n → Vec d) (i : Fin n) (unique : Bool) (bs : PyTree (Option ℤ)) (hbs : ValidBlock bs) (size : ℕ) (hsize : 0 < size) (hle : size ≤ n)
    (ord : List (Fin (size + (size - size)))) (hord : ∀ t, t ∈ ord) :
    ∃ (z : Vec d) (f : Fin size → Fin n) (st : List ℝ), herdingReduce big (KExpr.linear s c : KExpr d).sem.compute none unique bs size (Data.ofArray (Function.update x i z)) none ord = .ok (⟨fun t => (f t : ℤ), fun _ => 1⟩, st) ∧
      f ⟨0, hsize⟩ = i := by
  obtain ⟨B, hB⟩ : ∃ B, B = (∑ l, ∑ j, |vdot (x l) (x j)|) + ∑ l, |x l ⟨0, hd⟩| := ⟨_, rfl⟩
  have hp1 : 0 ≤ ∑ l, ∑ j, |vdot (x l) (x j)| := sum_nonneg fun _ _ => sum_nonneg fun _ _ => abs_nonneg _
  have hp2 : 0 ≤ ∑ l, |x l ⟨0, hd⟩| := sum_nonneg fun _ _ => abs_nonneg _
  obtain ⟨z, hz⟩ : ∃ z : Vec d, z = Pi.single ⟨0, hd⟩ (2 * B + 1) := ⟨_, rfl⟩
  have hvz : ∀ a, vdot a z = a ⟨0, hd⟩ * (2 * B + 1) := fun a => by
    rw [hz, vdot, sum_eq_single ⟨0, hd⟩ (fun b _ hb => by rw [Pi.single_eq_of_ne hb, mul_zero]) (by simp), Pi.single_eq_same]
  have hzv : ∀ a, vdot z a = a ⟨0, hd⟩ * (2 * B + 1) := fun a => by
    rw [← hvz, vdot, vdot]; exact sum_congr rfl fun _ _ => mul_comm _ _
  have hk : ∀ a b, (KExpr.linear s c : KExpr d).sem.compute a b = s * vdot a b + c := fun _ _ => rfl
  have hn' : (0 : ℝ) < n := by exact_mod_cast NeZero.pos n
  obtain ⟨f, h1, h2⟩ := C12_reduce_greedy big (KExpr.linear s c : KExpr d).sem.compute (fun a b => by rw [hk, hk, vdot, vdot]; simp only [mul_comm]) unique bs hbs size hsize (Data.ofArray (Function.update x i z))
    (by simpa [Data.ofArray] using hn'.ne') none (by simp) ord hord (by simpa [PosCount, Data.ofArray] using hle)
  refine ⟨z, f, _, h1, ?_⟩
  by_contra hne
  have h3 := (h2 ⟨0, hsize⟩).2.1 i ⟨one_pos, fun _ t ht => absurd ht (by simp [Fin.lt_def])⟩
  have e1 : ∀ g : Fin size → ℝ, (∑ t, if t < (⟨0, hsize⟩ : Fin size) then g t else 0) = 0 := fun g => sum_eq_zero fun t _ => if_neg (by simp [Fin.lt_def])
  have e2 : ∀ j, avg (Data.ofArray (K := ℝ) (Function.update x i z)).weights (fun l => (KExpr.linear s c : KExpr d).sem.compute ((Data.ofArray (K := ℝ) (Function.update x i z)).data l) ((Data.ofArray (K := ℝ) (Function.update x i z)).data j))
      = s * (vdot z (Function.update x i z j) + ∑ l ∈ univ.erase i, vdot (x l) (Function.update x i z j)) / n + c := by
    intro j
    have e3 : ∑ l, vdot (Function.update x i z l) (Function.update x i z j) = vdot z (Function.update x i z j) + ∑ l ∈ univ.erase i, vdot (x l) (Function.update x i z j) := by
      rw [← add_sum_erase _ _ (mem_univ i), Function.update_self]
      congr 1
      exact sum_congr rfl fun l hl => by rw [Function.update_of_ne (ne_of_mem_erase hl)]
    rw [← e3]
    simp only [avg, Data.ofArray, hk, one_mul, sum_add_distrib, ← mul_sum, sum_const, card_univ, Fintype.card_fin, nsmul_eq_mul, mul_one]
    field_simp
  simp only [e1, e2, zero_div, sub_zero] at h3
  rw [Function.update_self, Function.update_of_ne hne] at h3
  have h4 : vdot z z + ∑ l ∈ univ.erase i, vdot (x l) z ≤ vdot z (x (f ⟨0, hsize⟩)) + ∑ l ∈ univ.erase i, vdot (x l) (x (f ⟨0, hsize⟩)) := by
    by_contra hc
    push Not at hc
    have := div_lt_div_of_pos_right (mul_lt_mul_of_pos_left hc hs) hn'
    linarith
  have h5 : z ⟨0, hd⟩ = 2 * B + 1 := by rw [hz, Pi.single_eq_same]
  rw [hzv, hzv, h5] at h4
  simp only [hvz, ← sum_mul] at h4
  have h6 : |∑ l ∈ univ.erase i, x l ⟨0, hd⟩| ≤ B := by
    refine (abs_sum_le_sum_abs _ _).trans ((sum_le_sum_of_subset_of_nonneg (subset_univ _) fun _ _ _ => abs_nonneg _).trans ?_)
    linarith
  have h7 : |∑ l ∈ univ.erase i, vdot (x l) (x (f ⟨0, hsize⟩))| ≤ B := by
    refine (abs_sum_le_sum_abs _ _).trans ((sum_le_sum_of_subset_of_nonneg (subset_univ _) fun _ _ _ => abs_nonneg _).trans ?_)
    have : ∑ l, |vdot (x l) (x (f ⟨0, hsize⟩))| ≤ ∑ l, ∑ j, |vdot (x l) (x j)| := sum_le_sum fun l _ => single_le_sum (f := fun j => |vdot (x l) (x j)|) (fun _ _ => abs_nonneg _) (mem_univ _)
    linarith
  have h8 : |x (f ⟨0, hsize⟩) ⟨0, hd⟩| ≤ B := by
    have := single_le_sum (f := fun l => |x l ⟨0, hd⟩|) (fun _ _ => abs_nonneg _) (mem_univ (f ⟨0, hsize⟩))
    linarith
  have h9 := (abs_le.1 h6).1
  have h10 := (abs_le.1 h7).2
  have h11 := (abs_le.1 h8).2
  have hB0 : 0 ≤ B := by linarith
  nlinarith

example (ord : List (Fin (2 + (2 - 2)))) (hord : ∀ t, t ∈ ord) := C94_herding_linear (d := 2) (n := 3) (by norm_num) 1000 (s := 1) (c := 2) one_pos (![![0, 0], ![1, 2], ![3, 4]]) 0 true (.leaf none) (Or.inl rfl) 2 (by norm_num) (by norm_num) ord hord

end

end Coreax
