import Verif.Props.RateEndToEnd
import Verif.Props.WeightsCases
import Mathlib.Algebra.Order.Chebyshev

/-!
# C102: kernel herding with a Stein kernel
-/

namespace Coreax

open Finset Spec

universe u

namespace SteinHerding

theorem of_mmdSq {X : Type u} [Zero X] (big : ℝ) (k : X → X → ℝ) {n m : ℕ} (hn : 0 < n) (hm : 0 < m) (x : Data n X ℝ) (y : Data m X ℝ) (hx : ∑ i, x.weights i ≠ 0)
    (hy : ∑ i, y.weights i ≠ 0) (bs : PyTree (Option ℤ)) (hbs : ValidBlock bs) {B : ℝ} (hB : 0 ≤ B) (h : mmdSq k x.data x.weights y.data y.weights ≤ B) :
    ∃ r, mmdCompute big k x y bs = .ok r ∧ r ≤ Real.sqrt B :=
  ⟨_, C07_compute big k hn hm x y hx hy bs hbs, Real.sqrt_le_sqrt (max_le hB h)⟩

theorem one_div_le_sum_sq {m : ℕ} (hm : 0 < m) {v : Fin m → ℝ} (hv : OnSimplex v) : 1 / (m : ℝ) ≤ ∑ i, v i ^ 2 := by
  have h := sq_sum_le_card_mul_sum_sq (s := univ) (f := v)
  rw [hv.2, card_univ, Fintype.card_fin, one_pow] at h
  rw [div_le_iff₀ (by positivity)]
  linarith

end SteinHerding

open SteinHerding

/-- C102: the kernel Stein discrepancies of two weighted data sets differ at most by their maximum mean discrepancy for the Stein kernel. -/
theorem C102_gap {X : Type u} [Zero X] (big : ℝ) (kp : X → X → ℝ) (hk : IsPSD kp) {n m : ℕ} (hn : 0 < n) (hm : 0 < m) (x : Data n X ℝ) (y : Data m X ℝ)
    (hx : ∑ i, x.weights i ≠ 0) (hy : ∑ i, y.weights i ≠ 0) (bs bs' bs'' : PyTree (Option ℤ)) (hbs : ValidBlock bs) (hbs' : ValidBlock bs') (hbs'' : ValidBlock bs'') :
    ∃ a b r, ksdCompute big kp x bs none none = .ok a ∧ ksdCompute big kp y bs' none none = .ok b ∧ mmdCompute big kp x y bs'' = .ok r ∧ |a - b| ≤ r ∧ r ≤ a + b := by
  obtain ⟨H, i1, i2, φ, hφ⟩ := hk.exists_feature
  exact ⟨_, _, _, (C35_ksd_norm big kp hk hn x hx bs hbs).2.2 H i1 i2 φ hφ, (C35_ksd_norm big kp hk hm y hy bs' hbs').2.2 H i1 i2 φ hφ,
    (C07_rkhs_distance big kp hk hn hm x y hx hy bs'' hbs'').2 H i1 i2 φ hφ, abs_norm_sub_norm_le _ _, norm_sub_le _ _⟩

variable {n d : ℕ} [NeZero n]

/-- C102: kernel herding with the Stein kernel of a smooth base kernel and any score function. The coreset has the rate of kernel herding in the discrepancy of the Stein kernel, and its kernel
Stein discrepancy is that of the data up to that rate: it becomes neither much worse nor much better. -/
theorem C102_herding (big : ℝ) (K : KExpr d) (score : Vec d → Vec d) (hc : K.check = .ok ()) (hd : K.PsdDomain) (hs : K.Smooth)
    (unique : Bool) (bs bs' : PyTree (Option ℤ)) (hbs : ValidBlock bs) (hbs' : ValidBlock bs') (size : ℕ) (hsize : 0 < size)
    (pre : Data n (Vec d) ℝ) (hw0 : ∀ j, 0 ≤ pre.weights j) (hu : unique = true → UniformWeights pre.weights)
    (hpos : PosCount pre.weights size) (ord : List (Fin (size + (size - size)))) (hord : ∀ t, t ∈ ord)
    (R : ℝ) (hR : ∀ j, 0 < pre.weights j → (KExpr.stein K score).sem.compute (pre.data j) (pre.data j) ≤ R) :
    ∃ f : Fin size → Fin n, ∃ st r a b,
      herdingReduce big (KExpr.stein K score).sem.compute none unique bs size pre none ord = .ok (⟨fun t => (f t : ℤ), fun _ => 1⟩, st) ∧
      mmdCompute big (KExpr.stein K score).sem.compute pre ⟨fun t => pre.data (f t), fun _ => (1 : ℝ)⟩ bs' = .ok r ∧ r ≤ Real.sqrt (R / size) ∧
      ksdCompute big (KExpr.stein K score).sem.compute pre bs' none none = .ok a ∧
      ksdCompute big (KExpr.stein K score).sem.compute ⟨fun t => pre.data (f t), fun _ => (1 : ℝ)⟩ bs' none none = .ok b ∧ |a - b| ≤ Real.sqrt (R / size) := by
  have hpsd := C35_psd K score hc hd hs
  obtain ⟨k, hkd⟩ : ∃ k, k = (KExpr.stein K score).sem.compute := ⟨_, rfl⟩
  rw [← hkd] at hpsd hR ⊢
  have hex : ∃ j, 0 < pre.weights j := by
    obtain ⟨j, hj⟩ := Finset.card_pos.1 (lt_of_lt_of_le hsize hpos)
    exact ⟨j, (Finset.mem_filter.1 hj).2⟩
  have hW : 0 < ∑ j, pre.weights j := by
    obtain ⟨j, hj⟩ := hex
    exact Finset.sum_pos' (fun i _ => hw0 i) ⟨j, Finset.mem_univ _, hj⟩
  have hle : size ≤ n := hpos.trans ((Finset.card_le_univ _).trans (by simp))
  have hM : 0 ≤ avg pre.weights fun i => avg pre.weights fun j => k (pre.data i) (pre.data j) :=
    (C35_ksd_norm big k hpsd (NeZero.pos n) pre hW.ne' (.leaf none) (.inl rfl)).2.1
  have hR0 : 0 ≤ R := by
    obtain ⟨j, hj⟩ := hex
    refine le_trans ?_ (hR j hj)
    have := hpsd.2 n pre.data (Pi.single j 1)
    simpa [Pi.single_apply] using this
  have hs0 : (0 : ℝ) < size := by exact_mod_cast hsize
  obtain ⟨f, st, h1, h2⟩ : ∃ f : Fin size → Fin n, ∃ st, herdingReduce big k none unique bs size pre none ord = .ok (⟨fun t => (f t : ℤ), fun _ => 1⟩, st) ∧
      mmdSq k pre.data pre.weights (fun t => pre.data (f t)) (fun _ => 1) ≤ R / size := by
    cases unique with
    | true =>
      obtain ⟨f, st, h1, h2⟩ := C48_herding_rate_unique big k hpsd.1 bs hbs size hsize pre (hpsd.2 n pre.data) (hu rfl) hpos none (by simp) ord hord R hR
      exact ⟨f, st, h1, h2.trans (by gcongr; linarith)⟩
    | false =>
      obtain ⟨f, st, h1, h2⟩ := C48_herding_rate big k hpsd.1 bs hbs size hsize hle pre hw0 hex none (by simp) ord hord R hR
      exact ⟨f, st, h1, h2.trans (by gcongr; linarith)⟩
  have hC : ∑ t, (⟨fun t => pre.data (f t), fun _ => (1 : ℝ)⟩ : Data size (Vec d) ℝ).weights t ≠ 0 := by
    simp
    omega
  obtain ⟨r, h3, h4⟩ := of_mmdSq big k (NeZero.pos n) hsize pre ⟨fun t => pre.data (f t), fun _ => (1 : ℝ)⟩ hW.ne' hC bs' hbs' (by positivity) h2
  obtain ⟨a, b, r', h5, h6, h7, h8, -⟩ := C102_gap big k hpsd (NeZero.pos n) hsize pre ⟨fun t => pre.data (f t), fun _ => (1 : ℝ)⟩ hW.ne' hC bs' bs' bs' hbs' hbs' hbs'
  rw [h3] at h7
  obtain rfl := Except.ok.inj h7
  exact ⟨f, st, r, a, b, h1, h3, h4, h5, h6, h8.trans h4⟩

/-- C102: Stein thinning can do what kernel herding with the same Stein kernel cannot. If some weights on the rows have a kernel Stein discrepancy `b` that is smaller than that of the data, `a`,
by more than twice the rate, the coreset of Stein thinning has a smaller kernel Stein discrepancy than that of kernel herding. -/
theorem C102_bias (big : ℝ) (K : KExpr d) (score : Vec d → Vec d) (hc : K.check = .ok ()) (hd : K.PsdDomain) (hs : K.Smooth)
    (bs bs' : PyTree (Option ℤ)) (hbs : ValidBlock bs) (hbs' : ValidBlock bs') (size : ℕ) (hsize : 0 < size)
    (pre : Data n (Vec d) ℝ) (hw0 : ∀ j, 0 ≤ pre.weights j) (hpos : PosCount pre.weights size) (ord : List (Fin (size + (size - size)))) (hord : ∀ t, t ∈ ord)
    (R : ℝ) (hR : ∀ j, 0 < pre.weights j → (KExpr.stein K score).sem.compute (pre.data j) (pre.data j) ≤ R)
    (v : Fin n → ℝ) (hv : ∀ j, 0 ≤ v j) (hV : 0 < ∑ j, v j) (hvw : ∀ j, 0 < v j → 0 < pre.weights j) {a b : ℝ}
    (ha : ksdCompute big (KExpr.stein K score).sem.compute pre bs' none none = .ok a)
    (hb : ksdCompute big (KExpr.stein K score).sem.compute ⟨pre.data, v⟩ bs' none none = .ok b) (hab : b + 2 * Real.sqrt (R / size) < a) :
    ∃ f g : Fin size → Fin n, ∃ st p q,
      herdingReduce big (KExpr.stein K score).sem.compute none false bs size pre none ord = .ok (⟨fun t => (f t : ℤ), fun _ => 1⟩, st) ∧
      steinReduce big (KExpr.stein K score).sem.compute false bs size pre none ord = .ok ⟨fun t => (g t : ℤ), fun _ => 1⟩ ∧
      ksdCompute big (KExpr.stein K score).sem.compute ⟨fun t => pre.data (f t), fun _ => (1 : ℝ)⟩ bs' none none = .ok p ∧
      ksdCompute big (KExpr.stein K score).sem.compute ⟨fun t => pre.data (g t), fun _ => (1 : ℝ)⟩ bs' none none = .ok q ∧ q < p := by
  obtain ⟨f, st, r, a', p, h1, -, -, h4, h5, h6⟩ := C102_herding big K score hc hd hs false bs bs' hbs hbs' size hsize pre hw0 (by simp) hpos ord hord R hR
  have hpsd := C35_psd K score hc hd hs
  obtain ⟨k, hkd⟩ : ∃ k, k = (KExpr.stein K score).sem.compute := ⟨_, rfl⟩
  rw [← hkd] at hpsd hR ha hb h1 h4 h5 ⊢
  rw [ha] at h4
  obtain rfl := Except.ok.inj h4
  obtain ⟨g, h7, h8⟩ := C49_stein_rate big k hpsd.1 bs hbs size hsize pre (hpsd.2 n pre.data) ord hord hpos
  have h9 := h8 v hv hV hvw
  have hC : ∑ t, (⟨fun t => pre.data (g t), fun _ => (1 : ℝ)⟩ : Data size (Vec d) ℝ).weights t ≠ 0 := by
    simp
    omega
  have h10 := (C35_ksd_norm big k hpsd hsize ⟨fun t => pre.data (g t), fun _ => (1 : ℝ)⟩ hC bs' hbs').1
  have h11 := (C35_ksd_norm big k hpsd (NeZero.pos n) ⟨pre.data, v⟩ hV.ne' bs' hbs').1
  rw [hb] at h11
  have h12 := Except.ok.inj h11
  refine ⟨f, g, st, p, _, h1, h7, h5, h10, ?_⟩
  have h13 : (avg v fun j => k (pre.data j) (pre.data j)) ≤ R := Rate.avg_le v hv hV _ R fun j hj => hR j (hvw j hj)
  have h14 : Real.sqrt ((avg v fun j => k (pre.data j) (pre.data j)) / size) ≤ Real.sqrt (R / size) := Real.sqrt_le_sqrt (by gcongr)
  have h15 := (abs_le.1 h6).2
  unfold ksd at h9
  simp only at h12 h9 ⊢
  rw [← h12] at h9
  linarith

/-- C102: `MMDWeightsOptimiser` with any non-negative regularisation does not make a coreset worse than equal weights do: neither in the discrepancy for its kernel nor, with a Stein kernel,
in the distance of the kernel Stein discrepancy from that of the data. -/
theorem C102_weights {X Y : Type u} [Zero X] (qp : SimplexQP ℝ) (hqp : QPContract qp) (big : ℝ) (k : X → X → ℝ) (hk : IsPSD k) {n m : ℕ}
    (hn : 0 < n) (hm : 0 < m) (dataset : DSet n X Y ℝ) (coreset : DSet m X Y ℝ) (h1 : dataset.sup = none) (h2 : coreset.sup = none) (eps : ℝ) (heps : 0 ≤ eps)
    (bs bs' : PyTree (Option ℤ)) (hbs : ValidBlock bs) (hbs' : ValidBlock bs') :
    ∃ v : Fin m → ℝ, mmdWeightsSolve qp big k dataset coreset eps bs = .ok (fun i => .fin (v i)) ∧
      ∃ r r' a b, mmdCompute big k (Data.ofArray dataset.data) ⟨coreset.data, v⟩ bs' = .ok r ∧
        mmdCompute big k (Data.ofArray dataset.data) (Data.ofArray coreset.data) bs' = .ok r' ∧ r ≤ r' ∧
        ksdCompute big k (Data.ofArray dataset.data) bs' none none = .ok a ∧ ksdCompute big k ⟨coreset.data, v⟩ bs' none none = .ok b ∧ |a - b| ≤ r' := by
  obtain ⟨v, h3, h4, h5⟩ := C29_optimal qp hqp big k hk.1 hn hm dataset coreset h1 h2 eps heps (hk.2 m coreset.data) bs hbs
  have hm0 : (0 : ℝ) < m := by exact_mod_cast hm
  have hn0 : (0 : ℝ) < n := by exact_mod_cast hn
  have hunit : OnSimplex (fun _ : Fin m => 1 / (m : ℝ)) := by
    refine ⟨fun _ => by positivity, ?_⟩
    rw [sum_const, card_univ, Fintype.card_fin, nsmul_eq_mul]
    field_simp
  have h6 := h5 _ hunit
  have h7 := one_div_le_sum_sq hm h4
  have h8 : ∑ _i : Fin m, (1 / (m : ℝ)) ^ 2 = 1 / (m : ℝ) := by
    rw [sum_const, card_univ, Fintype.card_fin, nsmul_eq_mul]
    field_simp
  rw [h8] at h6
  have h9 := mul_le_mul_of_nonneg_left h7 heps
  have hsumN : ∑ i, (Data.ofArray (K := ℝ) dataset.data).weights i = n := by simp [Data.ofArray]
  have hsumM : ∑ i, (Data.ofArray (K := ℝ) coreset.data).weights i = m := by simp [Data.ofArray]
  have hsumV : ∑ i, (⟨coreset.data, v⟩ : Data m X ℝ).weights i = 1 := h4.2
  have e1 : mmdSq k dataset.data (fun _ => 1) coreset.data v = distSq k dataset.data (fun _ => 1 / (n : ℝ)) coreset.data v := by
    rw [mmdSq_eq_distSq, h4.2]
    simp
  have e2 : mmdSq k dataset.data (fun _ => 1) coreset.data (fun _ => 1) = distSq k dataset.data (fun _ => 1 / (n : ℝ)) coreset.data (fun _ => 1 / (m : ℝ)) := by
    rw [mmdSq_eq_distSq]
    simp
  have hX := C07_compute big k hn hm (Data.ofArray dataset.data) ⟨coreset.data, v⟩ (by rw [hsumN]; exact hn0.ne') (by rw [hsumV]; exact one_ne_zero) bs' hbs'
  have hU := C07_compute big k hn hm (Data.ofArray dataset.data) (Data.ofArray coreset.data) (by rw [hsumN]; exact hn0.ne') (by rw [hsumM]; exact hm0.ne') bs' hbs'
  obtain ⟨a, b, r, g1, g2, g3, g4, -⟩ := C102_gap big k hk hn hm (Data.ofArray dataset.data) ⟨coreset.data, v⟩ (by rw [hsumN]; exact hn0.ne') (by rw [hsumV]; exact one_ne_zero)
    bs' bs' bs' hbs' hbs' hbs'
  have hle : Real.sqrt (max 0 (mmdSq k (Data.ofArray (K := ℝ) dataset.data).data (Data.ofArray (K := ℝ) dataset.data).weights coreset.data v)) ≤
      Real.sqrt (max 0 (mmdSq k (Data.ofArray (K := ℝ) dataset.data).data (Data.ofArray (K := ℝ) dataset.data).weights (Data.ofArray (K := ℝ) coreset.data).data (Data.ofArray (K := ℝ) coreset.data).weights)) := by
    refine Real.sqrt_le_sqrt (max_le_max le_rfl ?_)
    show mmdSq k dataset.data (fun _ => 1) coreset.data v ≤ mmdSq k dataset.data (fun _ => 1) coreset.data (fun _ => 1)
    rw [e1, e2]
    linarith
  have g5 := Except.ok.inj (g3.symm.trans hX)
  exact ⟨v, h3, _, _, a, b, hX, hU, hle, g1, g2, g4.trans (by rw [g5]; exact hle)⟩

/-- C102: judged with another kernel. If `C` times the kernel used for the coreset dominates the kernel of the metric (their difference is positive semi-definite), the discrepancy for the
metric is at most `√C` times that for the kernel used. -/
theorem C102_dominated {X : Type u} [Zero X] (big : ℝ) (k k' : X → X → ℝ) (hk : IsPSD k) {C : ℝ} (hC : 0 ≤ C) (hdom : IsPSD fun a b => C * k a b - k' a b)
    {n m : ℕ} (hn : 0 < n) (hm : 0 < m) (x : Data n X ℝ) (y : Data m X ℝ) (hx : ∑ i, x.weights i ≠ 0) (hy : ∑ i, y.weights i ≠ 0) (bs bs' : PyTree (Option ℤ))
    (hbs : ValidBlock bs) (hbs' : ValidBlock bs') :
    ∃ r r', mmdCompute big k x y bs = .ok r ∧ mmdCompute big k' x y bs' = .ok r' ∧ r' ≤ Real.sqrt C * r := by
  refine ⟨_, _, C07_compute big k hn hm x y hx hy bs hbs, C07_compute big k' hn hm x y hx hy bs' hbs', ?_⟩
  have h0 := (C07_rkhs_distance big k hk hn hm x y hx hy bs hbs).1
  have h1 := (C07_rkhs_distance big _ hdom hn hm x y hx hy bs hbs).1
  have e : mmdSq (fun a b => C * k a b - k' a b) x.data x.weights y.data y.weights = C * mmdSq k x.data x.weights y.data y.weights - mmdSq k' x.data x.weights y.data y.weights := by
    have hav : ∀ {p : ℕ} (w f g : Fin p → ℝ), (avg w fun i => C * f i - g i) = C * avg w f - avg w g := fun w f g => by
      unfold avg
      rw [mul_div_assoc', ← sub_div, mul_sum, ← sum_sub_distrib]
      congr 1
      exact sum_congr rfl fun i _ => by ring
    simp only [mmdSq, hav]
    ring
  rw [e] at h1
  rw [max_eq_right h0, ← Real.sqrt_mul hC]
  exact Real.sqrt_le_sqrt (max_le (mul_nonneg hC h0) (by linarith))

example := C102_gap 1000 (fun a b : ℝ => a * b) (isPSD_rankOne fun a : ℝ => a) (by norm_num) (by norm_num) (⟨![1, 2, -4], ![1, 2, 0]⟩ : Data 3 ℝ ℝ)
  (⟨![1, 3], ![1, 1]⟩ : Data 2 ℝ ℝ) (by simp [Fin.sum_univ_three]; norm_num) (by simp [Fin.sum_univ_two]) (.leaf none) (.leaf (some 2)) (.leaf none)
  (.inl rfl) (.inl rfl) (.inl rfl)

/-- The set-up of `examples/herding_stein_weighted.py` with three rows: a PCIMQ base kernel and the score of the standard normal distribution. -/
example := C102_herding (d := 2) (n := 3) 1000 (.pcimq 2 1) (fun x i => -x i) (by norm_num [KExpr.check, checkPos]; rfl) trivial trivial true (.leaf none) (.leaf (some 2)) (.inl rfl)
  (.inl rfl) 2 (by norm_num) ⟨![![0, 0], ![1, 2], ![3, 4]], fun _ => 1⟩ (fun _ => by norm_num) (fun _ => ⟨1, by norm_num, fun _ => .inr rfl⟩) (by simp [PosCount]) [0, 1] (by decide) _
  (fun j _ => le_ciSup (Set.finite_range fun j : Fin 3 => (KExpr.stein (.pcimq 2 1) fun x i => -x i : KExpr 2).sem.compute (![![0, 0], ![1, 2], ![3, 4]] j) (![![0, 0], ![1, 2], ![3, 4]] j)).bddAbove j)

theorem SteinHerding.const_stein (x y : Vec 1) : (KExpr.stein (.const 1) fun x i => -x i : KExpr 1).sem.compute x y = x 0 * y 0 := by
  simp [KExpr.sem, KSem.ofCompute, steinCompute, constSem, vdot]

/-- Nine rows, eight of them 1 and one -1, with the score of the standard normal distribution and a constant base kernel: the mean 7/9 stays with kernel herding, Stein thinning removes it. -/
example := C102_bias (d := 1) (n := 9) 1000 (.const 1) (fun x i => -x i) (by norm_num [KExpr.check, checkNonneg]) (by norm_num [KExpr.PsdDomain]) trivial (.leaf none) (.leaf none) (.inl rfl) (.inl rfl)
  9 (by norm_num) ⟨fun i _ => if i = 0 then -1 else 1, fun _ => 1⟩ (fun _ => by norm_num) (by simp [PosCount]) (List.finRange 9) (by decide) 1
  (fun j _ => by
    rw [const_stein]
    dsimp only
    split_ifs <;> norm_num)
  (fun i => if i = 0 then 8 else 1) (fun j => by split_ifs <;> norm_num) (by simp [Fin.sum_univ_succ]) (fun j _ => one_pos) (a := 7 / 9) (b := 0)
  (by
    rw [C35_ksd_value _ _ (by norm_num) _ (by simp) _ (.inl rfl)]
    simp only [const_stein, avg, Fin.sum_univ_succ, Fin.succ_ne_zero]
    norm_num
    rw [show (49 : ℝ) = 7 ^ 2 by norm_num, show (81 : ℝ) = 9 ^ 2 by norm_num, Real.sqrt_sq (by norm_num), Real.sqrt_sq (by norm_num)])
  (by
    rw [C35_ksd_value _ _ (by norm_num) _ (by simp [Fin.sum_univ_succ]) _ (.inl rfl)]
    simp only [const_stein, avg, Fin.sum_univ_succ, Fin.succ_ne_zero]
    norm_num)
  (by
    have : Real.sqrt (1 / ((9 : ℕ) : ℝ)) = 1 / 3 := by
      rw [show (1 : ℝ) / ((9 : ℕ) : ℝ) = (1 / 3) ^ 2 by norm_num, Real.sqrt_sq (by norm_num)]
    rw [this]
    norm_num)

example {qp : SimplexQP ℝ} (hqp : QPContract qp) := C102_weights (Y := ℝ) qp hqp 1000 (fun a b : ℝ => a * b) (isPSD_rankOne fun a : ℝ => a) (by norm_num) (by norm_num)
  (⟨⟨![1, 2, -4], ![1, 1, 1]⟩, none⟩ : DSet 3 ℝ ℝ ℝ) (⟨⟨![1, -4], ![1, 1]⟩, none⟩ : DSet 2 ℝ ℝ ℝ) rfl rfl (1 / 100) (by norm_num) (.leaf none) (.leaf none) (.inl rfl) (.inl rfl)

/-- Twice the kernel `1 + x y` dominates the kernel `2`. -/
example := C102_dominated 1000 (fun a b : ℝ => 1 + a * b) (fun _ _ => 2) ((isPSD_const zero_le_one).add (isPSD_rankOne fun a : ℝ => a)) (C := 2) (by norm_num)
  (by
    have h := (isPSD_rankOne fun a : ℝ => a).smul (a := 2) (by norm_num)
    convert h using 3
    ring)
  (by norm_num) (by norm_num) (⟨![1, 2, -4], ![1, 2, 0]⟩ : Data 3 ℝ ℝ) (⟨![1, 3], ![1, 1]⟩ : Data 2 ℝ ℝ) (by simp [Fin.sum_univ_three]; norm_num)
  (by simp [Fin.sum_univ_two]) (.leaf none) (.leaf none) (.inl rfl) (.inl rfl)

end Coreax
