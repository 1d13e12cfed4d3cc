import Verif.Props.HerdingRate

/-!
# C48: comparison with random sampling, full-size coresets, and what fails for unequal weights
-/

set_option linter.unusedSectionVars false

namespace Coreax

open Greedy Spec

variable {X K : Type*} [Zero X] [Field K] [LinearOrder K] [IsStrictOrderedRing K]
variable {n : ℕ} [NeZero n] {m : ℕ}

/-- Expectation of `F` over `T` independent draws of rows, each row with probability proportional to its weight. -/
def Spec.expectDraws {T : ℕ} (w : Fin n → K) (F : (Fin T → Fin n) → K) : K :=
  (∑ h : Fin T → Fin n, (∏ t, w (h t)) * F h) / (∑ j, w j) ^ T

theorem Rate.sum_prod_one {T : ℕ} (w : Fin n → K) (F : Fin n → K) (t : Fin T) :
    ∑ h : Fin T → Fin n, (∏ s, w (h s)) * F (h t) = (∑ j, w j * F j) * (∑ j, w j) ^ (T - 1) := by
  have h1 : ∀ h : Fin T → Fin n, (∏ s, w (h s)) * F (h t) = ∏ s, w (h s) * (if s = t then F (h s) else 1) := by
    intro h
    rw [Finset.prod_mul_distrib]
    simp
  simp only [h1]
  rw [← Fintype.prod_sum (fun s j => w j * (if s = t then F j else 1)), ← Finset.mul_prod_erase _ _ (Finset.mem_univ t)]
  congr 1
  · simp
  · rw [Finset.prod_congr rfl (g := fun _ => ∑ j, w j)]
    · simp
    · intro s hs
      simp [(Finset.mem_erase.1 hs).1]

theorem Rate.expect_one {T : ℕ} (w : Fin n → K) (hW : ∑ j, w j ≠ 0) (F : Fin n → K) (t : Fin T) :
    expectDraws w (fun h : Fin T → Fin n => F (h t)) = avg w F := by
  unfold expectDraws avg
  rw [Rate.sum_prod_one]
  have : (∑ j, w j) ^ T = (∑ j, w j) * (∑ j, w j) ^ (T - 1) := by
    rw [← pow_succ']
    congr 1
    have := t.2
    omega
  rw [this]
  field_simp

theorem Rate.expect_two {T : ℕ} (w : Fin n → K) (hW : ∑ j, w j ≠ 0) (F : Fin n → Fin n → K) (s t : Fin T) (hst : s ≠ t) :
    expectDraws w (fun h : Fin T → Fin n => F (h s) (h t)) = avg w fun i => avg w fun j => F i j := by
  have h1 : ∀ h : Fin T → Fin n, (∏ r, w (h r)) * F (h s) (h t)
      = ∑ a, ∏ r, w (h r) * ((if r = s then (if h r = a then 1 else 0) else 1) * (if r = t then F a (h r) else 1)) := by
    intro h
    have : ∀ a, ∏ r, w (h r) * ((if r = s then (if h r = a then (1 : K) else 0) else 1) * (if r = t then F a (h r) else 1))
        = (∏ r, w (h r)) * ((if h s = a then 1 else 0) * F a (h t)) := by
      intro a
      rw [Finset.prod_mul_distrib, Finset.prod_mul_distrib]
      simp
    simp only [this]
    rw [← Finset.mul_sum]
    simp
  unfold expectDraws
  simp only [h1]
  rw [Finset.sum_comm]
  have h2 : ∀ a, ∑ h : Fin T → Fin n, ∏ r, w (h r) * ((if r = s then (if h r = a then (1 : K) else 0) else 1) * (if r = t then F a (h r) else 1))
      = w a * (∑ j, w j * F a j) * (∑ j, w j) ^ (T - 2) := by
    intro a
    rw [← Fintype.prod_sum (fun r j => w j * ((if r = s then (if j = a then (1 : K) else 0) else 1) * (if r = t then F a j else 1))),
      ← Finset.mul_prod_erase _ _ (Finset.mem_univ s),
      ← Finset.mul_prod_erase _ _ (Finset.mem_erase.2 ⟨hst.symm, Finset.mem_univ t⟩), ← mul_assoc]
    congr 1
    · congr 1
      · simp [hst]
      · simp [hst.symm]
    · rw [Finset.prod_congr rfl (g := fun _ => ∑ j, w j)]
      · rw [Finset.prod_const]
        congr 1
        rw [Finset.card_erase_of_mem (Finset.mem_erase.2 ⟨hst.symm, Finset.mem_univ t⟩), Finset.card_erase_of_mem (Finset.mem_univ s)]
        simp only [Finset.card_univ, Fintype.card_fin]
        omega
      · intro r hr
        have h3 := (Finset.mem_erase.1 hr).1
        have h4 := (Finset.mem_erase.1 (Finset.mem_erase.1 hr).2).1
        simp [h3, h4]
  simp only [h2]
  have hT : (∑ j, w j) ^ T = (∑ j, w j) * (∑ j, w j) * (∑ j, w j) ^ (T - 2) := by
    rw [← pow_two, ← pow_add]
    congr 1
    have h3 := s.2
    have h4 := t.2
    have h5 : (s : ℕ) ≠ t := fun h => hst (Fin.ext h)
    omega
  rw [hT]
  unfold avg
  rw [← Finset.sum_mul]
  have : ∑ i, w i * ((∑ j, w j * F i j) / ∑ j, w j) = (∑ i, w i * ∑ j, w j * F i j) / ∑ j, w j := by
    rw [Finset.sum_div]
    exact Finset.sum_congr rfl fun i _ => by rw [mul_div_assoc]
  rw [this]
  field_simp

/-- The expected squared MMD of `T` independent draws from the data. -/
theorem C48_random_sampling (k : X → X → K) (x : Fin n → X) (w : Fin n → K) (hW : ∑ j, w j ≠ 0) {T : ℕ} (hT : 0 < T) :
    expectDraws w (fun h : Fin T → Fin n => mmdSq k x w (fun t => x (h t)) (fun _ => 1))
      = ((avg w fun j => k (x j) (x j)) - avg w fun i => avg w fun j => k (x i) (x j)) / T := by
  have hT' : (T : K) ≠ 0 := by positivity
  have hlin : ∀ F G : (Fin T → Fin n) → K, ∀ a b : K, expectDraws w (fun h => a * F h + b * G h)
      = a * expectDraws w F + b * expectDraws w G := by
    intro F G a b
    unfold expectDraws
    rw [← mul_div_assoc, ← mul_div_assoc, ← add_div, Finset.mul_sum, Finset.mul_sum, ← Finset.sum_add_distrib]
    congr 1
    exact Finset.sum_congr rfl fun _ _ => by ring
  have hsum : ∀ F : Fin T → (Fin T → Fin n) → K, expectDraws w (fun h => ∑ t, F t h) = ∑ t, expectDraws w (F t) := by
    intro F
    unfold expectDraws
    rw [← Finset.sum_div]
    congr 1
    simp only [Finset.mul_sum]
    exact Finset.sum_comm
  have hconst : ∀ c : K, expectDraws w (fun _ : Fin T → Fin n => c) = c := by
    intro c
    have := Rate.expect_one w hW (fun _ => c) (⟨0, hT⟩ : Fin T)
    rw [this]
    unfold avg
    rw [← Finset.sum_mul]
    field_simp
  set M := avg w fun i => avg w fun j => k (x i) (x j) with hM
  have e : ∀ h : Fin T → Fin n, mmdSq k x w (fun t => x (h t)) (fun _ => 1)
      = 1 * (1 * M + (-2 / T) * ∑ t, Rate.meanAt k x w (h t)) + (1 / (T : K) ^ 2) * ∑ s, ∑ t, k (x (h s)) (x (h t)) := by
    intro h
    have := Rate.potential_eq_mmdSq k x w hT h (Rate.seq h) (Rate.seq_fin h)
    have e1 : Rate.sumMean k x w (Rate.seq h) T = ∑ t, Rate.meanAt k x w (h t) := by
      unfold Rate.sumMean
      rw [Finset.sum_range]
      exact Finset.sum_congr rfl fun t _ => by rw [Rate.seq_fin]
    have e2 : Rate.sumPair k x (Rate.seq h) T = ∑ s, ∑ t, k (x (h s)) (x (h t)) := by
      unfold Rate.sumPair
      rw [Finset.sum_range]
      refine Finset.sum_congr rfl fun s _ => ?_
      rw [Finset.sum_range]
      exact Finset.sum_congr rfl fun t _ => by rw [Rate.seq_fin, Rate.seq_fin]
    unfold Rate.potential at this
    rw [e1, e2] at this
    have e3 : Rate.meanSq k x w = M := rfl
    rw [e3] at this
    field_simp
    linarith
  simp only [e]
  rw [hlin, hlin, hconst, hsum, hsum]
  have h1 : ∀ t : Fin T, expectDraws w (fun h : Fin T → Fin n => Rate.meanAt k x w (h t)) = M := by
    intro t
    rw [Rate.expect_one w hW]
    unfold Rate.meanAt
    rw [hM]
    unfold avg
    congr 1
    have e1 : ∀ i, w i * ((∑ j, w j * k (x j) (x i)) / ∑ j, w j) = ∑ j, w i * w j * k (x j) (x i) / ∑ j, w j := by
      intro i
      rw [← mul_div_assoc, Finset.mul_sum, Finset.sum_div]
      exact Finset.sum_congr rfl fun _ _ => by ring
    have e2 : ∀ i, w i * ((∑ j, w j * k (x i) (x j)) / ∑ j, w j) = ∑ j, w j * w i * k (x i) (x j) / ∑ j, w j := by
      intro i
      rw [← mul_div_assoc, Finset.mul_sum, Finset.sum_div]
      exact Finset.sum_congr rfl fun _ _ => by ring
    simp only [e1, e2]
    exact Finset.sum_comm
  have h2 : ∀ s : Fin T, expectDraws w (fun h : Fin T → Fin n => ∑ t, k (x (h s)) (x (h t)))
      = (avg w fun j => k (x j) (x j)) + ((T : K) - 1) * M := by
    intro s
    rw [hsum, ← Finset.add_sum_erase _ _ (Finset.mem_univ s), Rate.expect_one w hW (fun j => k (x j) (x j))]
    congr 1
    rw [Finset.sum_congr rfl (g := fun _ => M)]
    · rw [Finset.sum_const, Finset.card_erase_of_mem (Finset.mem_univ s), nsmul_eq_mul]
      simp only [Finset.card_univ, Fintype.card_fin]
      rw [Nat.cast_sub hT, Nat.cast_one]
    · intro t ht
      exact Rate.expect_two w hW (fun i j => k (x i) (x j)) s t (Finset.mem_erase.1 ht).1.symm
  simp only [h1, h2, Finset.sum_const, Finset.card_univ, Fintype.card_fin, nsmul_eq_mul]
  field_simp
  ring

example := C48_random_sampling (fun a b : ℚ => a * b + 1) ![0, 1, 3] ![1, 2, 0] (by decide +kernel) (T := 2) (by norm_num)

/-- For a kernel that is constant on the diagonal, herding (with `unique=False`) is never worse than the expectation of sampling as many points
at random. -/
theorem C48_beats_random (big : K) (k : X → X → K) (hk : ∀ a b, k a b = k b a)
    (bs : PyTree (Option ℤ)) (hbs : ValidBlock bs) (size : ℕ) (hsize : 0 < size) (hle : size ≤ n) (pre : Data n X K)
    (hdiag : ∀ i j, k (pre.data i) (pre.data i) = k (pre.data j) (pre.data j))
    (hw0 : ∀ j, 0 ≤ pre.weights j) (hpos : ∃ j, 0 < pre.weights j) (state : Option (List K))
    (hst : ∀ l, state = some l → gramianRowMean big k pre bs = .ok l)
    (ord : List (Fin (size + (size - size)))) (hord : ∀ t, t ∈ ord) :
    ∃ f : Fin size → Fin n, ∃ st, herdingReduce big k none false bs size pre state ord
        = .ok (⟨fun t => (f t : ℤ), fun _ => 1⟩, st) ∧
      mmdSq k pre.data pre.weights (fun t => pre.data (f t)) (fun _ => 1)
        ≤ expectDraws pre.weights fun h : Fin size → Fin n => mmdSq k pre.data pre.weights (fun t => pre.data (h t)) (fun _ => 1) := by
  have hW : 0 < ∑ j, pre.weights j := by
    obtain ⟨j, hj⟩ := hpos
    exact Finset.sum_pos' (fun i _ => hw0 i) ⟨j, Finset.mem_univ _, hj⟩
  obtain ⟨f, st, h1, h2⟩ := C48_herding_rate big k hk bs hbs size hsize hle pre hw0 hpos state hst ord hord
    (k (pre.data 0) (pre.data 0)) (fun j _ => (hdiag j 0).le)
  refine ⟨f, st, h1, h2.trans (le_of_eq ?_)⟩
  rw [C48_random_sampling k pre.data pre.weights hW.ne' hsize]
  congr 2
  unfold avg
  rw [Finset.sum_congr rfl (g := fun j => pre.weights j * k (pre.data 0) (pre.data 0)) (fun j _ => by beta_reduce; rw [hdiag j 0]), ← Finset.sum_mul]
  field_simp

example := C48_beats_random 1000 (fun a b : ℚ => if a = b then (1 : ℚ) else 0) (fun a b => by simp only [eq_comm]) (.leaf none) (.inl rfl) 2 (by norm_num) (by norm_num) (⟨![0, 1, 3], ![1, 2, 0]⟩ : Data 3 ℚ ℚ) (fun _ _ => by simp) (by decide +kernel) (by decide +kernel) none (by simp) [0, 1] (by decide)

/-- With `unique=True` a coreset as large as the number of (equally weighted) points is the data: the MMD is zero. -/
theorem C48_full_size (big : K) (k : X → X → K) (hk : ∀ a b, k a b = k b a)
    (bs : PyTree (Option ℤ)) (hbs : ValidBlock bs) (pre : Data n X K) (u : K) (hu : 0 < u) (hw : ∀ j, pre.weights j = u)
    (state : Option (List K)) (hst : ∀ l, state = some l → gramianRowMean big k pre bs = .ok l)
    (ord : List (Fin (n + (n - n)))) (hord : ∀ t, t ∈ ord) :
    ∃ f : Fin n → Fin n, ∃ st, herdingReduce big k none true bs n pre state ord
        = .ok (⟨fun t => (f t : ℤ), fun _ => 1⟩, st) ∧ Function.Bijective f ∧
      mmdSq k pre.data pre.weights (fun t => pre.data (f t)) (fun _ => 1) = 0 := by
  obtain ⟨f, st, h1, h2, h3⟩ := C11_reduce_valid big k none true bs hbs n (NeZero.pos n) pre
    (by intro d hd; cases hd) state ord hord (by unfold PosCount; simp [hw, hu])
  have hb : Function.Bijective f := Finite.injective_iff_bijective.1 (h3 rfl)
  refine ⟨f, st, h1, hb, ?_⟩
  have hn : (n : K) ≠ 0 := by have := NeZero.pos n; positivity
  have ha : ∀ F : Fin n → K, avg pre.weights F = (∑ j, F j) / n := by
    intro F
    unfold avg
    simp only [hw, ← Finset.mul_sum, Finset.sum_const, Finset.card_univ, Fintype.card_fin, nsmul_eq_mul]
    field_simp
  have hb' : ∀ F : Fin n → K, avg (fun _ : Fin n => (1 : K)) (fun t => F (f t)) = (∑ j, F j) / n := by
    intro F
    unfold avg
    simp only [one_mul, Finset.sum_const, Finset.card_univ, Fintype.card_fin, nsmul_eq_mul, mul_one]
    rw [hb.sum_comp F]
  unfold mmdSq
  have e1 : ∀ i, avg (fun _ : Fin n => (1 : K)) (fun t => k (pre.data i) (pre.data (f t))) = (∑ j, k (pre.data i) (pre.data j)) / n :=
    fun i => hb' fun j => k (pre.data i) (pre.data j)
  simp only [ha, e1]
  rw [hb' fun i => (∑ j, k (pre.data i) (pre.data j)) / n]
  ring

example := C48_full_size 1000 (fun a b : ℚ => a * b + 1) (fun a b => by ring) (.leaf none) (.inl rfl) (⟨![0, 1, 3], ![2, 2, 2]⟩ : Data 3 ℚ ℚ) 2 (by norm_num) (by decide +kernel) none (by simp) [0, 1, 2] (by decide)

/-- With `unique=True` and unequal weights there is no rate at all: for every size from 4 on there are positively weighted data and a
bounded positive semi-definite kernel for which the squared MMD stays at least 1/4. -/
theorem C48_unique_weighted_no_rate (T : ℕ) (hT : 4 ≤ T) [NeZero T] (big : ℚ) (bs : PyTree (Option ℤ)) (hbs : ValidBlock bs)
    (ord : List (Fin (T + (T - T)))) (hord : ∀ t, t ∈ ord) :
    ∃ (k : ℕ → ℕ → ℚ) (pre : Data T ℕ ℚ), (∀ a b, k a b = k b a) ∧ (∀ a, k a a = 1) ∧
      (∀ c : Fin T → ℚ, 0 ≤ ∑ i, ∑ j, c i * c j * k (pre.data i) (pre.data j)) ∧ (∀ j, 0 < pre.weights j) ∧
      ∃ f : Fin T → Fin T, ∃ st, herdingReduce big k none true bs T pre none ord = .ok (⟨fun t => (f t : ℤ), fun _ => 1⟩, st) ∧
        1 / 4 ≤ mmdSq k pre.data pre.weights (fun t => pre.data (f t)) (fun _ => 1) := by
  let k : ℕ → ℕ → ℚ := fun a b => if a = b then 1 else 0
  let pre : Data T ℕ ℚ := ⟨fun j => (j : ℕ), fun j => if j = 0 then (T : ℚ) ^ 2 else 1⟩
  have hk : ∀ a b, k a b = k b a := by intro a b; simp only [k, eq_comm]
  have hTq : (4 : ℚ) ≤ T := by exact_mod_cast hT
  have hwpos : ∀ j, 0 < pre.weights j := by
    intro j
    simp only [pre]
    split_ifs
    · positivity
    · norm_num
  have hkd : ∀ i j : Fin T, k (pre.data i) (pre.data j) = if i = j then 1 else 0 := by
    intro i j
    simp only [k, pre, Fin.ext_iff]
  refine ⟨k, pre, hk, fun a => by simp [k], fun c => ?_, hwpos, ?_⟩
  · simp only [hkd, mul_ite, mul_one, mul_zero, Finset.sum_ite_eq, Finset.mem_univ, if_true]
    exact Finset.sum_nonneg fun i _ => mul_self_nonneg _
  · obtain ⟨f, st, h1, h2, h3⟩ := C11_reduce_valid big k none true bs hbs T (by omega) pre
      (by intro d hd; cases hd) none ord hord (by unfold PosCount; simp [hwpos])
    have hb : Function.Bijective f := Finite.injective_iff_bijective.1 (h3 rfl)
    refine ⟨f, st, h1, ?_⟩
    have hW : ∑ j, pre.weights j = (T : ℚ) ^ 2 + (T - 1) := by
      rw [← Finset.add_sum_erase _ _ (Finset.mem_univ (0 : Fin T))]
      congr 1
      rw [Finset.sum_congr rfl (g := fun _ => (1 : ℚ))]
      · rw [Finset.sum_const, Finset.card_erase_of_mem (Finset.mem_univ _), nsmul_eq_mul, mul_one]
        simp only [Finset.card_univ, Fintype.card_fin]
        rw [Nat.cast_sub (by omega), Nat.cast_one]
      · intro j hj
        simp only [pre]
        rw [if_neg (Finset.mem_erase.1 hj).1]
    have hWp : 0 < ∑ j, pre.weights j := by rw [hW]; nlinarith
    set W := ∑ j, pre.weights j with hWd
    have e1 : (avg pre.weights fun i => avg pre.weights fun j => k (pre.data i) (pre.data j)) = (∑ i, pre.weights i ^ 2) / W ^ 2 := by
      unfold avg
      rw [← hWd]
      simp only [hkd, mul_ite, mul_one, mul_zero, Finset.sum_ite_eq, Finset.mem_univ, if_true]
      rw [pow_two W, ← div_div]
      congr 1
      rw [Finset.sum_div]
      exact Finset.sum_congr rfl fun i _ => by ring
    have e2 : ∀ i, avg (fun _ : Fin T => (1 : ℚ)) (fun t => k (pre.data i) (pre.data (f t))) = 1 / T := by
      intro i
      unfold avg
      simp only [one_mul, Finset.sum_const, Finset.card_univ, Fintype.card_fin, nsmul_eq_mul, mul_one]
      rw [hb.sum_comp fun j => k (pre.data i) (pre.data j)]
      simp [hkd]
    have e3 : avg pre.weights (fun _ => (1 : ℚ) / T) = 1 / T := by
      unfold avg
      rw [← Finset.sum_mul, ← hWd]
      field_simp
    have e4 : avg (fun _ : Fin T => (1 : ℚ)) (fun t => avg (fun _ : Fin T => (1 : ℚ)) fun s => k (pre.data (f t)) (pre.data (f s))) = 1 / T := by
      simp only [e2]
      unfold avg
      simp only [one_mul, Finset.sum_const, Finset.card_univ, Fintype.card_fin, nsmul_eq_mul, mul_one]
      field_simp
    unfold mmdSq
    rw [e1, e4]
    simp only [e2]
    rw [e3]
    have h5 : ((T : ℚ) ^ 2) ^ 2 ≤ ∑ i, pre.weights i ^ 2 := by
      have h6 := Finset.single_le_sum (f := fun i => pre.weights i ^ 2) (fun i _ => sq_nonneg (pre.weights i)) (Finset.mem_univ (0 : Fin T))
      have h7 : pre.weights (0 : Fin T) = (T : ℚ) ^ 2 := by simp [pre]
      simpa [h7] using h6
    have h6 : (16 / 25 : ℚ) ≤ (∑ i, pre.weights i ^ 2) / W ^ 2 := by
      rw [le_div_iff₀ (by positivity)]
      refine le_trans ?_ h5
      have h8 : 4 / 5 * W ≤ (T : ℚ) ^ 2 := by rw [hW]; nlinarith [sq_nonneg ((T : ℚ) - 2)]
      have : (4 / 5 * W) ^ 2 ≤ ((T : ℚ) ^ 2) ^ 2 := pow_le_pow_left₀ (by positivity) h8 2
      nlinarith
    have h7 : (1 : ℚ) / T ≤ 1 / 4 := one_div_le_one_div_of_le (by norm_num) hTq
    linarith

example := C48_unique_weighted_no_rate 5 (by norm_num) 1000 (.leaf none) (.inl rfl) [0, 1, 2, 3, 4] (by decide)

end Coreax
