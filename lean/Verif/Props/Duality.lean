import Verif.Props.BadRows

/-!
# C95: What a small discrepancy says about averages
-/

set_option linter.unusedSectionVars false

namespace Coreax

open Spec Finset Stability
open scoped RealInnerProductSpace

namespace Spec

/-- A combination of kernel functions, `Σ c_j k(z_j, ·)`. -/
def combination {X : Type*} (k : X → X → ℝ) {p : ℕ} (z : Fin p → X) (c : Fin p → ℝ) (a : X) : ℝ := ∑ j, c j * k (z j) a

/-- Its norm in the reproducing kernel Hilbert space. -/
noncomputable def combinationNorm {X : Type*} (k : X → X → ℝ) {p : ℕ} (z : Fin p → X) (c : Fin p → ℝ) : ℝ := Real.sqrt (∑ i, ∑ j, c i * c j * k (z i) (z j))

end Spec

namespace Duality

universe u
variable {X : Type u} {k : X → X → ℝ} {H : Type u} [NormedAddCommGroup H] [InnerProductSpace ℝ H] {φ : X → H}

theorem avg_inner {n : ℕ} (θ : H) (x : Fin n → X) (w : Fin n → ℝ) : avg w (fun i => ⟪θ, φ (x i)⟫) = ⟪θ, meanEmbedding φ x w⟫ := by
  rw [embedding_eq, inner_sum, avg, sum_div]
  exact sum_congr rfl fun i _ => by rw [inner_smul_right]; ring

theorem combination_eq (h : ∀ a b, k a b = ⟪φ a, φ b⟫) {p : ℕ} (z : Fin p → X) (c : Fin p → ℝ) (a : X) : combination k z c a = ⟪∑ j, c j • φ (z j), φ a⟫ := by
  rw [combination, sum_inner]
  exact sum_congr rfl fun j _ => by rw [inner_smul_left, h]; rfl

theorem combinationNorm_eq (h : ∀ a b, k a b = ⟪φ a, φ b⟫) {p : ℕ} (z : Fin p → X) (c : Fin p → ℝ) : combinationNorm k z c = ‖∑ j, c j • φ (z j)‖ := by
  rw [combinationNorm, norm_eq_sqrt_real_inner, sum_inner]
  congr 1
  refine sum_congr rfl fun i _ => ?_
  rw [inner_sum]
  exact sum_congr rfl fun j _ => by rw [inner_smul_left, inner_smul_right, h]; simp; ring

end Duality

section
universe u
variable {X : Type u} [Zero X] {n m : ℕ}

/-- **C95.** The averages over data and coreset of a function of the reproducing kernel Hilbert space differ by at most its norm times the computed discrepancy: for combinations of kernel functions, with any coefficients. -/
theorem C95_averages (big : ℝ) (k : X → X → ℝ) (hk : IsPSD k) (hn : 0 < n) (hm : 0 < m) (x : Data n X ℝ) (y : Data m X ℝ) (hx : ∑ i, x.weights i ≠ 0) (hy : ∑ i, y.weights i ≠ 0) (bs : PyTree (Option ℤ)) (hbs : ValidBlock bs) :
    ∃ r, mmdCompute big k x y bs = .ok r ∧ ∀ (p : ℕ) (z : Fin p → X) (c : Fin p → ℝ),
      |avg x.weights (fun i => combination k z c (x.data i)) - avg y.weights fun j => combination k z c (y.data j)| ≤ combinationNorm k z c * r := by
  obtain ⟨H, _, _, φ, h⟩ := hk.exists_feature
  refine ⟨_, (C07_rkhs_distance big k hk hn hm x y hx hy bs hbs).2 H _ _ φ h, fun p z c => ?_⟩
  simp only [Duality.combination_eq h, Duality.combinationNorm_eq h, Duality.avg_inner, ← inner_sub_right]
  exact abs_real_inner_le_norm _ _

/-- **C95.** More generally for every function that is linear in features of the kernel. -/
theorem C95_features (big : ℝ) (k : X → X → ℝ) (hk : IsPSD k) (hn : 0 < n) (hm : 0 < m) (x : Data n X ℝ) (y : Data m X ℝ) (hx : ∑ i, x.weights i ≠ 0) (hy : ∑ i, y.weights i ≠ 0) (bs : PyTree (Option ℤ)) (hbs : ValidBlock bs) :
    ∃ r, mmdCompute big k x y bs = .ok r ∧ ∀ (H : Type u) (_ : NormedAddCommGroup H) (_ : InnerProductSpace ℝ H) (φ : X → H), (∀ a b, k a b = ⟪φ a, φ b⟫) → ∀ θ : H,
      |avg x.weights (fun i => ⟪θ, φ (x.data i)⟫) - avg y.weights fun j => ⟪θ, φ (y.data j)⟫| ≤ ‖θ‖ * r := by
  refine ⟨_, C07_compute big k hn hm x y hx hy bs hbs, fun H _ _ φ h θ => ?_⟩
  rw [mmdSq_eq_norm φ h, max_eq_right (sq_nonneg _), Real.sqrt_sq (norm_nonneg _), Duality.avg_inner, Duality.avg_inner, ← inner_sub_right]
  exact abs_real_inner_le_norm _ _

/-- **C95.** The bound is attained, by a combination with one term for each row of data and coreset: the computed number is the largest difference of averages over the unit ball. -/
theorem C95_attained (big : ℝ) (k : X → X → ℝ) (hk : IsPSD k) (hn : 0 < n) (hm : 0 < m) (x : Data n X ℝ) (y : Data m X ℝ) (hx : ∑ i, x.weights i ≠ 0) (hy : ∑ i, y.weights i ≠ 0) (bs : PyTree (Option ℤ)) (hbs : ValidBlock bs) :
    ∃ r, mmdCompute big k x y bs = .ok r ∧ ∃ c : Fin (n + m) → ℝ, combinationNorm k (Fin.append x.data y.data) c ≤ 1 ∧
      avg x.weights (fun i => combination k (Fin.append x.data y.data) c (x.data i)) - avg y.weights (fun j => combination k (Fin.append x.data y.data) c (y.data j)) = r := by
  obtain ⟨H, _, _, φ, h⟩ := hk.exists_feature
  refine ⟨_, (C07_rkhs_distance big k hk hn hm x y hx hy bs hbs).2 H _ _ φ h, ?_⟩
  obtain ⟨D, hD⟩ : ∃ D, D = meanEmbedding φ x.data x.weights - meanEmbedding φ y.data y.weights := ⟨_, rfl⟩
  refine ⟨fun t => ‖D‖⁻¹ * Fin.append (fun i => x.weights i / ∑ a, x.weights a) (fun j => -(y.weights j / ∑ a, y.weights a)) t, ?_⟩
  have e : ∑ t, (‖D‖⁻¹ * Fin.append (fun i => x.weights i / ∑ a, x.weights a) (fun j => -(y.weights j / ∑ a, y.weights a)) t) • φ (Fin.append x.data y.data t) = ‖D‖⁻¹ • D := by
    rw [Fin.sum_univ_add]
    simp only [Fin.append_left, Fin.append_right, mul_smul, neg_smul, smul_neg, sum_neg_distrib]
    rw [← smul_sum, ← smul_sum, ← sub_eq_add_neg, ← smul_sub, hD, embedding_eq, embedding_eq]
  constructor
  · rw [Duality.combinationNorm_eq h, e, norm_smul, norm_inv, norm_norm]
    exact inv_mul_le_one
  · simp only [Duality.combination_eq h, e, Duality.avg_inner, ← inner_sub_right, ← hD]
    rw [real_inner_smul_left, real_inner_self_eq_norm_sq]
    by_cases h0 : ‖D‖ = 0
    · rw [h0]; simp
    · field_simp

/-- **C95.** The kernel Stein discrepancy bounds the averages of combinations of the Stein kernel over the coreset, whose averages over the distribution are zero (C81); attained too. -/
theorem C95_ksd (big : ℝ) (k : X → X → ℝ) (hk : IsPSD k) (hm : 0 < m) (y : Data m X ℝ) (hy : ∑ i, y.weights i ≠ 0) (bs : PyTree (Option ℤ)) (hbs : ValidBlock bs) :
    ∃ r, ksdCompute big k y bs none none = .ok r ∧ (∀ (p : ℕ) (z : Fin p → X) (c : Fin p → ℝ), |avg y.weights fun j => combination k z c (y.data j)| ≤ combinationNorm k z c * r) ∧
      ∃ c : Fin m → ℝ, combinationNorm k y.data c ≤ 1 ∧ avg y.weights (fun j => combination k y.data c (y.data j)) = r := by
  obtain ⟨H, _, _, φ, h⟩ := hk.exists_feature
  refine ⟨_, C35_ksd_value big k hm y hy bs hbs none none, ?_⟩
  simp only [add_zero, sub_zero]
  rw [BadRows.avg_avg h, max_eq_right (sq_nonneg _), Real.sqrt_sq (norm_nonneg _)]
  refine ⟨fun p z c => ?_, ?_⟩
  · simp only [Duality.combination_eq h, Duality.combinationNorm_eq h, Duality.avg_inner]
    exact abs_real_inner_le_norm _ _
  · obtain ⟨D, hD⟩ : ∃ D, D = meanEmbedding φ y.data y.weights := ⟨_, rfl⟩
    have e : ∑ t, (‖D‖⁻¹ * (y.weights t / ∑ a, y.weights a)) • φ (y.data t) = ‖D‖⁻¹ • D := by
      simp only [mul_smul]
      rw [← smul_sum, hD, embedding_eq]
    refine ⟨fun t => ‖D‖⁻¹ * (y.weights t / ∑ a, y.weights a), ?_, ?_⟩
    · rw [Duality.combinationNorm_eq h, e, norm_smul, norm_inv, norm_norm]
      exact inv_mul_le_one
    · simp only [Duality.combination_eq h, e, Duality.avg_inner, ← hD]
      rw [real_inner_smul_left, real_inner_self_eq_norm_sq]
      by_cases h0 : ‖D‖ = 0
      · rw [h0]; simp
      · field_simp

example := C95_averages 1000 (KExpr.squaredExponential 2 1 : KExpr 2).sem.compute (C08_psd _ (SteinStrict.check_squaredExponential two_pos one_pos) trivial) (by norm_num) (by norm_num)
  (⟨![![0, 0], ![1, 2], ![3, 4]], ![1, 2, 1]⟩ : Data 3 (Vec 2) ℝ) (⟨![![1, 1]], ![1]⟩ : Data 1 (Vec 2) ℝ) (by simp [Fin.sum_univ_three]; norm_num) (by simp) (.leaf none) (Or.inl rfl)
example := C95_features 1000 (KExpr.squaredExponential 2 1 : KExpr 2).sem.compute (C08_psd _ (SteinStrict.check_squaredExponential two_pos one_pos) trivial) (by norm_num) (by norm_num)
  (⟨![![0, 0], ![1, 2], ![3, 4]], ![1, 2, 1]⟩ : Data 3 (Vec 2) ℝ) (⟨![![1, 1]], ![1]⟩ : Data 1 (Vec 2) ℝ) (by simp [Fin.sum_univ_three]; norm_num) (by simp) (.leaf none) (Or.inl rfl)
example := C95_attained 1000 (KExpr.squaredExponential 2 1 : KExpr 2).sem.compute (C08_psd _ (SteinStrict.check_squaredExponential two_pos one_pos) trivial) (by norm_num) (by norm_num)
  (⟨![![0, 0], ![1, 2], ![3, 4]], ![1, 2, 1]⟩ : Data 3 (Vec 2) ℝ) (⟨![![1, 1]], ![1]⟩ : Data 1 (Vec 2) ℝ) (by simp [Fin.sum_univ_three]; norm_num) (by simp) (.leaf none) (Or.inl rfl)
example := C95_ksd 1000 (KExpr.stein (.squaredExponential 2 1) fun x => -x : KExpr 2).sem.compute (C35_psd _ _ (SteinStrict.check_squaredExponential two_pos one_pos) trivial trivial) (by norm_num)
  (⟨![![0, 0], ![1, 2], ![3, 4]], ![1, 2, 1]⟩ : Data 3 (Vec 2) ℝ) (by simp [Fin.sum_univ_three]; norm_num) (.leaf none) (Or.inl rfl)

/-- **C95.** A herding coreset averages every such function to within its norm times `√(R / size)`. -/
theorem C95_herding [NeZero n] (big : ℝ) (k : X → X → ℝ) (hk : IsPSD k) {R : ℝ} (hR : ∀ a, k a a ≤ R) (x : Fin n → X) (bs : PyTree (Option ℤ)) (hbs : ValidBlock bs) (size : ℕ) (hsize : 0 < size) (hle : size ≤ n)
    (ord : List (Fin (size + (size - size)))) (hord : ∀ t, t ∈ ord) :
    ∃ (f : Fin size → Fin n) (st : List ℝ), herdingReduce big k none true bs size ⟨x, fun _ => 1⟩ none ord = .ok (⟨fun t => (f t : ℤ), fun _ => 1⟩, st) ∧ ∀ (p : ℕ) (z : Fin p → X) (c : Fin p → ℝ),
      |(∑ i, combination k z c (x i)) / n - (∑ t, combination k z c (x (f t))) / size| ≤ combinationNorm k z c * Real.sqrt (R / size) := by
  obtain ⟨f, st, r, h1, h2, h3⟩ := C94_herding big k hk hR x x ∅ (fun _ _ => rfl) bs hbs size hsize hle ord hord
  have hn' : (n : ℝ) ≠ 0 := by exact_mod_cast NeZero.ne n
  have hs' : (size : ℝ) ≠ 0 := by positivity
  obtain ⟨r', h4, h5⟩ := C95_averages big k hk (NeZero.pos n) hsize ⟨x, fun _ => 1⟩ ⟨fun t => x (f t), fun _ => 1⟩ (by simpa using hn') (by simpa using hs') bs hbs
  rw [h2] at h4
  injection h4 with h4
  subst h4
  refine ⟨f, st, h1, fun p z c => ?_⟩
  have h6 := h5 p z c
  simp only [avg, one_mul, sum_const, card_univ, Fintype.card_fin, nsmul_eq_mul, mul_one] at h6
  refine h6.trans (mul_le_mul_of_nonneg_left ?_ (Real.sqrt_nonneg _))
  simpa using h3

example (ord : List (Fin (2 + (2 - 2)))) (hord : ∀ t, t ∈ ord) := C95_herding (n := 3) 1000 (KExpr.squaredExponential 2 1 : KExpr 2).sem.compute (C08_psd _ (SteinStrict.check_squaredExponential two_pos one_pos) trivial) (R := 1)
  (fun a => by simp [KExpr.sem, squaredExponentialSem, sqDist]) (![![0, 0], ![1, 2], ![3, 4]]) (.leaf none) (Or.inl rfl) 2 (by norm_num) (by norm_num) ord hord

end

section
variable {n m d : ℕ}

/-- **C95.** With the linear kernel the discrepancy is the distance between the two weighted means, up to the scale of the kernel; the offset does not matter. -/
theorem C95_linear (big : ℝ) {s : ℝ} (hs : 0 ≤ s) (c : ℝ) (hn : 0 < n) (hm : 0 < m) (x : Data n (Vec d) ℝ) (y : Data m (Vec d) ℝ) (hx : ∑ i, x.weights i ≠ 0) (hy : ∑ i, y.weights i ≠ 0) (bs : PyTree (Option ℤ)) (hbs : ValidBlock bs) :
    mmdCompute big (KExpr.linear s c : KExpr d).sem.compute x y bs = .ok (Real.sqrt s * Real.sqrt (∑ t, (avg x.weights (fun i => x.data i t) - avg y.weights fun j => y.data j t) ^ 2)) := by
  rw [C07_compute big _ hn hm x y hx hy bs hbs]
  have hlin : ∀ {n : ℕ} (w : Fin n → ℝ), ∑ i, w i ≠ 0 → ∀ (g : Fin n → Vec d) (b : Vec d), avg w (fun i => s * ∑ t, g i t * b t + c) = s * ∑ t, avg w (fun i => g i t) * b t + c := by
    intro n w hw g b
    have e1 : ∑ i, w i * (s * ∑ t, g i t * b t + c) = s * (∑ t, (∑ i, w i * g i t) * b t) + (∑ i, w i) * c := by
      simp only [mul_add, sum_add_distrib, sum_mul]
      congr 1
      rw [sum_comm, mul_sum]
      refine sum_congr rfl fun i _ => ?_
      rw [mul_left_comm, mul_sum, mul_sum, mul_sum]
      exact sum_congr rfl fun t _ => by ring
    simp only [avg]
    rw [e1, add_div, mul_div_cancel_left₀ _ hw, mul_div_assoc, sum_div]
    congr 2
    exact sum_congr rfl fun t _ => by ring
  have key : ∀ {n m : ℕ} (x : Data n (Vec d) ℝ) (y : Data m (Vec d) ℝ), ∑ i, x.weights i ≠ 0 → ∑ i, y.weights i ≠ 0 →
      (avg x.weights fun i => avg y.weights fun j => (KExpr.linear s c : KExpr d).sem.compute (x.data i) (y.data j)) = s * ∑ t, avg x.weights (fun i => x.data i t) * avg y.weights (fun j => y.data j t) + c := by
    intro n m x y hx hy
    have e1 : ∀ i, (avg y.weights fun j => (KExpr.linear s c : KExpr d).sem.compute (x.data i) (y.data j)) = s * ∑ t, x.data i t * avg y.weights (fun j => y.data j t) + c := by
      intro i
      have : ∀ j, (KExpr.linear s c : KExpr d).sem.compute (x.data i) (y.data j) = s * ∑ t, y.data j t * x.data i t + c := fun j => by
        change s * vdot (x.data i) (y.data j) + c = _
        rw [vdot]
        simp only [mul_comm]
      simp only [this]
      rw [hlin y.weights hy]
      simp only [mul_comm]
    simp only [e1]
    exact hlin x.weights hx x.data _
  rw [mmdSq, key x x hx hx, key x y hx hy, key y y hy hy]
  have e : s * ∑ t, avg x.weights (fun i => x.data i t) * avg x.weights (fun j => x.data j t) + c - 2 * (s * ∑ t, avg x.weights (fun i => x.data i t) * avg y.weights (fun j => y.data j t) + c)
      + (s * ∑ t, avg y.weights (fun i => y.data i t) * avg y.weights (fun j => y.data j t) + c) = s * ∑ t, (avg x.weights (fun i => x.data i t) - avg y.weights fun j => y.data j t) ^ 2 := by
    simp only [sub_sq, sum_add_distrib, sum_sub_distrib, mul_assoc, ← mul_sum, ← pow_two]
    ring
  rw [e, max_eq_right (mul_nonneg hs (sum_nonneg fun _ _ => sq_nonneg _)), Real.sqrt_mul hs]

example := C95_linear 1000 (s := 2) (by norm_num) 3 (by norm_num) (by norm_num) (⟨![![0, 0], ![1, 2], ![3, 4]], ![1, 2, 1]⟩ : Data 3 (Vec 2) ℝ) (⟨![![1, 1]], ![1]⟩ : Data 1 (Vec 2) ℝ) (by simp [Fin.sum_univ_three]; norm_num) (by simp) (.leaf none) (Or.inl rfl)

/-- **C95, boundary.** For functions that jump a small discrepancy says nothing: for every squared exponential kernel and every `ε > 0` there are two data sets (one row each, repeated as often as one likes) with discrepancy below `ε`
and an indicator function that is one on the first and zero on the second. -/
theorem C95_jump (big : ℝ) {l : ℝ} (hl : 0 < l) (hd : 0 < d) (hn : 0 < n) (hm : 0 < m) {ε : ℝ} (hε : 0 < ε) (bs : PyTree (Option ℤ)) (hbs : ValidBlock bs) :
    ∃ (a b : Vec d) (r : ℝ) (f : Vec d → ℝ), mmdCompute big (KExpr.squaredExponential l 1 : KExpr d).sem.compute ⟨fun _ : Fin n => a, fun _ => 1⟩ ⟨fun _ : Fin m => b, fun _ => 1⟩ bs = .ok r ∧ r < ε ∧ (∀ z, f z = 0 ∨ f z = 1) ∧
      avg (fun _ : Fin n => (1 : ℝ)) (fun _ => f a) = 1 ∧ avg (fun _ : Fin m => (1 : ℝ)) (fun _ => f b) = 0 := by
  classical
  have hk := SteinStrict.check_squaredExponential hl (one_pos : (0 : ℝ) < 1) (d := d)
  have hn' : (n : ℝ) ≠ 0 := by positivity
  have hm' : (m : ℝ) ≠ 0 := by positivity
  have hpsd := C08_psd (.squaredExponential l 1 : KExpr d) hk trivial
  obtain ⟨H, _, _, φ, h⟩ := hpsd.exists_feature
  refine ⟨Pi.single ⟨0, hd⟩ (ε * l / 2), 0, _, fun z => if z = 0 then 0 else 1, (C07_rkhs_distance big _ hpsd hn hm _ _ (by simpa using hn') (by simpa using hm') bs hbs).2 H _ _ φ h, ?_, fun z => ?_, ?_, ?_⟩
  · have e : ∀ {n : ℕ} (z : Vec d), (n : ℝ) ≠ 0 → meanEmbedding φ (fun _ : Fin n => z) (fun _ => 1) = φ z := fun z hz => by
      simp [meanEmbedding, ← Nat.cast_smul_eq_nsmul ℝ, smul_smul, hz]
    simp only [e _ hn', e _ hm']
    rw [← kernelDist_eq h]
    refine (kernelDist_le _ hk trivial _ _).trans_lt ?_
    have e2 : nrm (Pi.single ⟨0, hd⟩ (ε * l / 2) : Vec d) 0 = ε * l / 2 := by
      rw [nrm_eq, sqDist, sum_eq_single ⟨0, hd⟩ (fun b _ hb => by rw [Pi.single_eq_of_ne hb]; simp) (by simp), Pi.single_eq_same, Pi.zero_apply, sub_zero, Real.sqrt_mul_self (by positivity)]
    have e3 : Real.sqrt (lipSq (.squaredExponential l 1 : KExpr d)) = 1 / l := by
      simp only [lipSq]
      rw [Real.sqrt_div zero_le_one, Real.sqrt_one, Real.sqrt_sq hl.le]
    rw [e2, e3]
    have : 1 / l * (ε * l / 2) = ε / 2 := by field_simp
    rw [this]
    linarith
  · by_cases hz : z = 0 <;> simp [hz]
  · have hne : (Pi.single ⟨0, hd⟩ (ε * l / 2) : Vec d) ≠ 0 := fun hc => by
      have := congrFun hc ⟨0, hd⟩
      rw [Pi.single_eq_same, Pi.zero_apply] at this
      have : 0 < ε * l / 2 := by positivity
      linarith
    simp [avg, hne, hn']
  · simp [avg]

example := C95_jump (d := 2) (n := 3) (m := 5) 1000 (l := 2) (by norm_num) (by norm_num) (by norm_num) (by norm_num) (ε := 1 / 1000) (by norm_num) (.leaf none) (Or.inl rfl)

end

end Coreax
