import Verif.Props.SteinRate
import Verif.Props.RateEndToEnd
import Verif.Props.SteinSolver
import Verif.Props.GaussianKde

/-!
# C112: what the regularisation of Stein thinning costs

C49 is about `regularise=False`.  The default is `regularise=True`: the objective of step `i` has the Laplace correction added and
`(i + 1) * lambda * logpdf` subtracted.
-/

set_option linter.unusedSectionVars false

namespace Coreax

open Greedy Spec

namespace Rate

variable {X : Type*} {n : ℕ}

/-- One step of the growth of the bound. -/
theorem step_slack (q B r : ℝ) (hq : 0 ≤ q) (hB : 0 ≤ B) (hr : 0 ≤ r) (m : ℕ) :
    (m * q + Real.sqrt B) ^ 2 + r + 2 * q * (m * q + Real.sqrt B) ≤ (((m : ℝ) + 1) * q + Real.sqrt (B + r)) ^ 2 := by
  have hm : (0 : ℝ) ≤ m := Nat.cast_nonneg m
  have h1 := Real.sq_sqrt hB
  have h2 := Real.sq_sqrt (add_nonneg hB hr)
  have h3 : Real.sqrt B ≤ Real.sqrt (B + r) := Real.sqrt_le_sqrt (by linarith)
  have h5 : q * (((m : ℝ) + 1) * Real.sqrt B) ≤ q * (((m : ℝ) + 1) * Real.sqrt (B + r)) :=
    mul_le_mul_of_nonneg_left (mul_le_mul_of_nonneg_left h3 (by linarith)) hq
  nlinarith

/-- With repetition; `pen i` is what step `i` adds to the objective. -/
theorem sumPair_le_slack (k : X → X → ℝ) (hk : ∀ a b, k a b = k b a) (x : Fin n → X)
    (hpsd : ∀ c : Fin n → ℝ, 0 ≤ ∑ i, ∑ j, c i * c j * k (x i) (x j)) (w v : Fin n → ℝ) (hv : ∀ j, 0 ≤ v j) (hV : 0 < ∑ j, v j)
    (hvw : ∀ j, 0 < v j → 0 < w j) (g : ℕ → Fin n) (N : ℕ) (pen : ℕ → Fin n → ℝ) (r : ℕ → ℝ) (hr : ∀ i, 0 ≤ r i)
    (h : ∀ i < N, ∀ j, 0 < w j → steinObj k x g i (g i) + pen i (g i) ≤ steinObj k x g i j + pen i j)
    (hb : ∀ i < N, (avg v fun j => k (x j) (x j)) + avg v (pen i) - pen i (g i) ≤ r i) (m : ℕ) (hm : m ≤ N) :
    sumPair k x g m ≤ (m * Real.sqrt (meanSq k x v) + Real.sqrt (∑ i ∈ Finset.range m, r i)) ^ 2 := by
  induction m with
  | zero => simp [sumPair]
  | succ m ih =>
    obtain ⟨hM, hA, hC⟩ := cauchy k hk x hpsd v g m
    have h1 : steinObj k x g m (g m) + pen m (g m) ≤ avg v (steinObj k x g m) + avg v (pen m) := by
      have := avg_le v hv hV (fun j => - (steinObj k x g m j + pen m j)) (-(steinObj k x g m (g m) + pen m (g m)))
        (fun j hj => neg_le_neg (h m (by omega) j (hvw j hj)))
      have e : avg v (fun j => - (steinObj k x g m j + pen m j)) = - (avg v (steinObj k x g m) + avg v (pen m)) := by
        unfold avg
        rw [← add_div, ← neg_div, ← Finset.sum_add_distrib, ← Finset.sum_neg_distrib]
        congr 1
        exact Finset.sum_congr rfl fun _ _ => by ring
      rw [e] at this
      linarith
    rw [avg_steinObj] at h1
    rw [sumPair_succ k hk, Finset.sum_range_succ]
    have hih := ih (by omega)
    have hbm := hb m (by omega)
    set q := Real.sqrt (meanSq k x v) with hq
    set B := ∑ i ∈ Finset.range m, r i with hBd
    have hB0 : 0 ≤ B := Finset.sum_nonneg fun i _ => hr i
    have hb' : 0 ≤ m * q + Real.sqrt B := by positivity
    have ha : Real.sqrt (sumPair k x g m) ≤ m * q + Real.sqrt B := by
      rw [Real.sqrt_le_left hb']
      exact hih
    have hq0 : 0 ≤ q := Real.sqrt_nonneg _
    have hstep := step_slack q B (r m) hq0 hB0 (hr m) m
    have h2 : q * Real.sqrt (sumPair k x g m) ≤ q * (m * q + Real.sqrt B) := mul_le_mul_of_nonneg_left ha hq0
    push_cast
    nlinarith

/-- Without repetition, equal weights. -/
theorem sumPair_le_unique_slack (k : X → X → ℝ) (hk : ∀ a b, k a b = k b a) (x : Fin n → X)
    (hpsd : ∀ c : Fin n → ℝ, 0 ≤ ∑ i, ∑ j, c i * c j * k (x i) (x j)) (w : Fin n → ℝ) (u : ℝ) (hu : 0 < u)
    (hw : ∀ j, w j = 0 ∨ w j = u) (g : ℕ → Fin n) (N : ℕ) (pen : ℕ → Fin n → ℝ) (r : ℕ → ℝ) (hr : ∀ i, 0 ≤ r i)
    (hpos : ∀ i < N, 0 < w (g i)) (hinj : ∀ i < N, ∀ t < i, g t ≠ g i)
    (h : ∀ i < N, ∀ j, 0 < w j → (∀ t < i, g t ≠ j) → steinObj k x g i (g i) + pen i (g i) ≤ steinObj k x g i j + pen i j)
    (hb : ∀ i < N, ∀ j, 0 < w j → k (x j) (x j) + pen i j - pen i (g i) ≤ r i) (m : ℕ) (hm : m ≤ N) :
    sumPair k x g m ≤ (m * Real.sqrt (meanSq k x w) + Real.sqrt (∑ i ∈ Finset.range m, r i)) ^ 2 := by
  induction m with
  | zero => simp [sumPair]
  | succ m ih =>
    obtain ⟨hM, hA, hC⟩ := cauchy k hk x hpsd w g m
    set P := Finset.univ.filter (fun j => 0 < w j) with hP
    set U := (Finset.range m).image g with hU
    have hUP : U ⊆ P := by
      intro j hj
      obtain ⟨t, ht, rfl⟩ := Finset.mem_image.1 hj
      exact Finset.mem_filter.2 ⟨Finset.mem_univ _, hpos t (by have := Finset.mem_range.1 ht; omega)⟩
    have hinjOn : Set.InjOn g (Finset.range m : Set ℕ) := by
      intro a ha b hb hab
      have ha' : a < m := by simpa using ha
      have hb' : b < m := by simpa using hb
      rcases lt_trichotomy a b with hlt | heq | hlt
      · exact absurd hab (hinj b (by omega) a hlt)
      · exact heq
      · exact absurd hab.symm (hinj a (by omega) b hlt)
    have hcard : U.card = m := by rw [hU, Finset.card_image_of_injOn hinjOn, Finset.card_range]
    have hmem : g m ∈ P \ U := by
      refine Finset.mem_sdiff.2 ⟨Finset.mem_filter.2 ⟨Finset.mem_univ _, hpos m (by omega)⟩, fun hm' => ?_⟩
      obtain ⟨t, ht, he⟩ := Finset.mem_image.1 hm'
      exact hinj m (by omega) t (Finset.mem_range.1 ht) he
    have hwP : ∀ j ∈ P, w j = u := by
      intro j hj
      rcases hw j with h0 | h0
      · exact absurd (Finset.mem_filter.1 hj).2 (by rw [h0]; exact lt_irrefl _)
      · exact h0
    have havg : ∀ F : Fin n → ℝ, ∑ j ∈ P, F j = (P.card : ℝ) * avg w F := by
      intro F
      have hs : ∀ G : Fin n → ℝ, ∑ j, w j * G j = u * ∑ j ∈ P, G j := by
        intro G
        rw [Finset.mul_sum, ← Finset.sum_subset (Finset.subset_univ P)]
        · exact Finset.sum_congr rfl fun j hj => by rw [hwP j hj]
        · intro j _ hj
          have : w j = 0 := by
            rcases hw j with h0 | h0
            · exact h0
            · exact absurd (Finset.mem_filter.2 ⟨Finset.mem_univ _, by rw [h0]; exact hu⟩) hj
          rw [this, zero_mul]
      have hW : ∑ j, w j = u * P.card := by
        have := hs fun _ => 1
        simpa using this
      have hPc : 0 < (P.card : ℝ) := by
        have : 0 < P.card := Finset.card_pos.2 ⟨g m, (Finset.mem_sdiff.1 hmem).1⟩
        exact_mod_cast this
      unfold avg
      rw [hs, hW]
      field_simp
    have hc : ((P \ U).card : ℝ) = (P.card : ℝ) - m := by
      rw [Finset.card_sdiff_of_subset hUP, hcard, Nat.cast_sub]
      rw [← hcard]
      exact Finset.card_le_card hUP
    have hd1 : (1 : ℝ) ≤ (P.card : ℝ) - m := by
      rw [← hc]
      have : 1 ≤ (P \ U).card := Finset.card_pos.2 ⟨_, hmem⟩
      exact_mod_cast this
    set d := (P.card : ℝ) - m with hd
    have hNd : (P.card : ℝ) = d + m := by rw [hd]; ring
    -- the chosen objective is at most the mean of the remaining ones
    have hrem : d * (steinObj k x g m (g m) + pen m (g m)) ≤ ∑ j ∈ P \ U, (steinObj k x g m j + pen m j) := by
      rw [← hc]
      have := Finset.card_nsmul_le_sum (P \ U) (fun j => steinObj k x g m j + pen m j) (steinObj k x g m (g m) + pen m (g m)) (fun j hj => by
        obtain ⟨h1, h2⟩ := Finset.mem_sdiff.1 hj
        refine h m (by omega) j (Finset.mem_filter.1 h1).2 fun t ht he => h2 ?_
        exact Finset.mem_image.2 ⟨t, Finset.mem_range.2 ht, he⟩)
      rwa [nsmul_eq_mul] at this
    have hcross : ∑ j ∈ P \ U, ∑ t ∈ Finset.range m, k (x j) (x (g t)) = (P.card : ℝ) * sumMean k x w g m - sumPair k x g m := by
      have h1 := Finset.sum_sdiff (f := fun j => ∑ t ∈ Finset.range m, k (x j) (x (g t))) hUP
      have h2 : ∑ j ∈ U, ∑ t ∈ Finset.range m, k (x j) (x (g t)) = sumPair k x g m := by
        rw [hU, Finset.sum_image hinjOn]
        rfl
      rw [havg, avg_sum_range, h2] at h1
      have h3 : ∑ t ∈ Finset.range m, (avg w fun j => k (x j) (x (g t))) = sumMean k x w g m := rfl
      rw [h3] at h1
      linarith
    have hdiag : ∑ j ∈ P \ U, (k (x j) (x j) + pen m j) ≤ d * (r m + pen m (g m)) := by
      rw [← hc]
      have := Finset.sum_le_card_nsmul (P \ U) (fun j => k (x j) (x j) + pen m j) (r m + pen m (g m))
        (fun j hj => by
          have := hb m (by omega) j (Finset.mem_filter.1 (Finset.mem_sdiff.1 hj).1).2
          linarith)
      rwa [nsmul_eq_mul] at this
    have hobj : d * steinObj k x g m (g m) ≤ d * r m + 2 * ((d + m) * sumMean k x w g m - sumPair k x g m) := by
      have e : ∑ j ∈ P \ U, (steinObj k x g m j + pen m j)
          = ∑ j ∈ P \ U, (k (x j) (x j) + pen m j) + 2 * ((d + m) * sumMean k x w g m - sumPair k x g m) := by
        rw [← hNd, ← hcross, Finset.mul_sum, ← Finset.sum_add_distrib]
        exact Finset.sum_congr rfl fun j _ => by unfold steinObj; ring
      rw [e] at hrem
      linarith
    rw [sumPair_succ k hk, Finset.sum_range_succ]
    have hih := ih (by omega)
    set q := Real.sqrt (meanSq k x w) with hq
    set a := Real.sqrt (sumPair k x g m) with ha
    set B := ∑ i ∈ Finset.range m, r i with hBd
    have hB0 : 0 ≤ B := Finset.sum_nonneg fun i _ => hr i
    have hrm := hr m
    have hA2 : sumPair k x g m = a ^ 2 := (Real.sq_sqrt hA).symm
    have hq0 : 0 ≤ q := Real.sqrt_nonneg _
    have ha0 : 0 ≤ a := Real.sqrt_nonneg _
    have hm0 : (0 : ℝ) ≤ m := Nat.cast_nonneg m
    have hb' : 0 ≤ m * q + Real.sqrt B := by positivity
    have hab : a ≤ m * q + Real.sqrt B := by
      rw [ha, Real.sqrt_le_left hb']
      exact hih
    have hd0 : 0 < d := by linarith
    have hobj2 : d * steinObj k x g m (g m) ≤ d * r m + 2 * ((d + m) * (q * a) - a ^ 2) := by
      have : (d + m) * sumMean k x w g m ≤ (d + m) * (q * a) := mul_le_mul_of_nonneg_left hC (by linarith)
      rw [hA2] at hobj
      linarith
    rw [hA2]
    push_cast
    rcases le_or_gt (m * q) a with hcase | hcase
    · have h1 : steinObj k x g m (g m) ≤ r m + 2 * (q * a) := by
        have h2 : m * q * a ≤ a * a := mul_le_mul_of_nonneg_right hcase ha0
        have h3 : d * steinObj k x g m (g m) ≤ d * (r m + 2 * (q * a)) := by nlinarith
        exact le_of_mul_le_mul_left h3 hd0
      have h4 := step_slack q B (r m) hq0 hB0 hrm m
      have h5 : a ^ 2 ≤ (m * q + Real.sqrt B) ^ 2 := pow_le_pow_left₀ ha0 hab 2
      have h6 : q * a ≤ q * (m * q + Real.sqrt B) := mul_le_mul_of_nonneg_left hab hq0
      linarith
    · have hb1 : 0 ≤ m * q - a := by linarith
      have h1 : d * (a ^ 2 + steinObj k x g m (g m)) ≤ d * (r m + (m ^ 2 + 2 * m) * q ^ 2) := by
        have h2 : 0 ≤ (m * q - a) * (d * (m * q + a) + 2 * d * q - 2 * a) := by
          refine mul_nonneg hb1 ?_
          have : m * q + a ≤ d * (m * q + a) := le_mul_of_one_le_left (by positivity) hd1
          have : 0 ≤ d * q := by positivity
          linarith
        nlinarith
      have h2 := le_of_mul_le_mul_left h1 hd0
      have h3 := Real.sq_sqrt (add_nonneg hB0 hrm)
      have h4 : 0 ≤ Real.sqrt (B + r m) := Real.sqrt_nonneg _
      have h5 : 0 ≤ ((m : ℝ) + 1) * q * Real.sqrt (B + r m) := by positivity
      nlinarith [sq_nonneg q]

end Rate

variable {X : Type*} [Zero X] {n : ℕ} [NeZero n] {m : ℕ}

/-- What the regularisation adds to the objective of step `i`. -/
def Rate.steinPen (lap logp : Fin n → ℝ) (i : ℕ) (j : Fin n) : ℝ := lap j - ((i : ℝ) + 1) * logp j

theorem Rate.stein_of_reduce_reg {k : X → X → ℝ} {x : Fin n → X} {w lap logp : Fin n → ℝ} {unique : Bool} {size : ℕ}
    {f : Fin size → Fin n} (h : SteinReduce k x w lap logp unique f) (i : ℕ) (hi : i < size) :
    0 < w (Rate.seq f i) ∧ (unique = true → ∀ t < i, Rate.seq f t ≠ Rate.seq f i) ∧
      ∀ j, 0 < w j → (unique = true → ∀ t < i, Rate.seq f t ≠ j) →
        Rate.steinObj k x (Rate.seq f) i (Rate.seq f i) + Rate.steinPen lap logp i (Rate.seq f i)
          ≤ Rate.steinObj k x (Rate.seq f) i j + Rate.steinPen lap logp i j := by
  obtain ⟨⟨h1, h2⟩, h3⟩ := h ⟨i, hi⟩
  have e : Rate.seq f i = f ⟨i, hi⟩ := Rate.seq_fin f ⟨i, hi⟩
  refine ⟨by rw [e]; exact h1, fun hu t ht => ?_, fun j hj hju => ?_⟩
  · rw [e, Rate.seq_fin f ⟨t, ht.trans hi⟩]
    exact h2 hu _ ht
  · have h4 := (h3 j ⟨hj, fun hu t ht => by
      have := hju hu t ht
      rwa [Rate.seq_fin] at this⟩).1
    have hs : ∀ l, (∑ t : Fin size, if t < ⟨i, hi⟩ then k (x l) (x (f t)) else 0)
        = ∑ t ∈ Finset.range i, k (x l) (x (Rate.seq f t)) := by
      intro l
      rw [sum_castLE hi.le, Finset.sum_range]
      · refine Finset.sum_congr rfl fun t _ => ?_
        rw [if_pos (by rw [Fin.lt_def]; exact t.2), ← Rate.seq_fin f (t.castLE hi.le)]
        rfl
      · intro t ht
        rw [if_neg (by rw [Fin.lt_def]; simpa using ht)]
    beta_reduce at h4
    rw [hs, hs] at h4
    unfold Rate.steinObj Rate.steinPen
    rw [e]
    linarith

theorem Rate.sum_stein_slack (a δ : ℝ) (m : ℕ) : ∑ i ∈ Finset.range m, (a + δ * ((i : ℝ) + 1)) = (a + δ * ((m : ℝ) + 1) / 2) * m := by
  induction m with
  | zero => simp
  | succ m ih =>
    rw [Finset.sum_range_succ, ih]
    push_cast
    ring

/-- C112, repeated points allowed: let the regularised log densities of the rows differ by at most `δ`.  Then the discrepancy of the coreset exceeds
that of any reweighting `v` of the rows by at most `sqrt ((avg_v k(x, x) + avg_v lap + δ (size + 1) / 2) / size)`. -/
theorem C112_rate (big : ℝ) (k : X → X → ℝ) (hk : ∀ a b, k a b = k b a) (bs : PyTree (Option ℤ)) (hbs : ValidBlock bs)
    (size : ℕ) (hsize : 0 < size) (pre : Data n X ℝ)
    (hpsd : ∀ c : Fin n → ℝ, 0 ≤ ∑ i, ∑ j, c i * c j * k (pre.data i) (pre.data j))
    (reg : SteinReg n ℝ) (hlap : ∀ j, 0 ≤ reg.lap j) (δ : ℝ)
    (hδ : ∀ i j, 0 < pre.weights i → 0 < pre.weights j → reg.logp i - reg.logp j ≤ δ)
    (ord : List (Fin (size + (size - size)))) (hord : ∀ t, t ∈ ord) (hpos : PosCount pre.weights size) :
    ∃ f : Fin size → Fin n, steinReduce big k false bs size pre (some reg) ord = .ok ⟨fun t => (f t : ℤ), fun _ => 1⟩ ∧
      ∀ v : Fin n → ℝ, (∀ j, 0 ≤ v j) → 0 < ∑ j, v j → (∀ j, 0 < v j → 0 < pre.weights j) →
        ksd k (fun t => pre.data (f t)) (fun _ => 1)
          ≤ ksd k pre.data v + Real.sqrt (((avg v fun j => k (pre.data j) (pre.data j)) + avg v reg.lap + δ * (size + 1) / 2) / size) := by
  obtain ⟨f, h1, h2, -⟩ := C15_reduce_greedy big k false bs hbs size hsize pre (some reg) ord hord hpos
  refine ⟨f, h1, fun v hv hV hvw => ?_⟩
  have hδ0 : 0 ≤ δ := by
    obtain ⟨j, hj⟩ := Finset.card_pos.1 (lt_of_lt_of_le hsize hpos)
    have := hδ j j (Finset.mem_filter.1 hj).2 (Finset.mem_filter.1 hj).2
    linarith
  have hD : 0 ≤ avg v fun j => k (pre.data j) (pre.data j) := by
    unfold avg
    refine div_nonneg (Finset.sum_nonneg fun j _ => mul_nonneg (hv j) ?_) hV.le
    have := hpsd (Pi.single j 1)
    simpa [Pi.single_apply] using this
  have hL : 0 ≤ avg v reg.lap := by
    unfold avg
    exact div_nonneg (Finset.sum_nonneg fun j _ => mul_nonneg (hv j) (hlap j)) hV.le
  set a := (avg v fun j => k (pre.data j) (pre.data j)) + avg v reg.lap with ha
  have hrun := fun i hi => Rate.stein_of_reduce_reg h2 i hi
  have := Rate.sumPair_le_slack k hk pre.data hpsd pre.weights v hv hV hvw (Rate.seq f) size (Rate.steinPen reg.lap reg.logp)
    (fun i => a + δ * ((i : ℝ) + 1)) (fun i => by positivity)
    (fun i hi j hj => (hrun i hi).2.2 j hj (by simp))
    (fun i hi => by
      have e : avg v (Rate.steinPen reg.lap reg.logp i) = avg v reg.lap - ((i : ℝ) + 1) * avg v reg.logp := by
        unfold avg Rate.steinPen
        rw [mul_div_assoc', ← sub_div]
        congr 1
        rw [Finset.mul_sum, ← Finset.sum_sub_distrib]
        exact Finset.sum_congr rfl fun _ _ => by ring
      have h3 : reg.logp (Rate.seq f i) - δ ≤ avg v reg.logp := by
        have := Rate.avg_le v hv hV (fun j => -reg.logp j) (δ - reg.logp (Rate.seq f i)) (fun j hj => by
          have := hδ (Rate.seq f i) j (hrun i hi).1 (hvw j hj)
          linarith)
        have e' : avg v (fun j => -reg.logp j) = -avg v reg.logp := by unfold avg; simp [neg_div]
        rw [e'] at this
        linarith
      have h4 := hlap (Rate.seq f i)
      have h5 : ((i : ℝ) + 1) * (reg.logp (Rate.seq f i) - δ) ≤ ((i : ℝ) + 1) * avg v reg.logp := mul_le_mul_of_nonneg_left h3 (by positivity)
      rw [e, ha]
      change _ - (reg.lap (Rate.seq f i) - ((i : ℝ) + 1) * reg.logp (Rate.seq f i)) ≤ _
      nlinarith) size le_rfl
  rw [Rate.sum_stein_slack] at this
  exact Rate.ksd_le hsize f (Real.sqrt_nonneg _) (by positivity) this

/-- C112, distinct points (the default) on equally weighted rows. -/
theorem C112_rate_unique (big : ℝ) (k : X → X → ℝ) (hk : ∀ a b, k a b = k b a) (bs : PyTree (Option ℤ)) (hbs : ValidBlock bs)
    (size : ℕ) (hsize : 0 < size) (pre : Data n X ℝ)
    (hpsd : ∀ c : Fin n → ℝ, 0 ≤ ∑ i, ∑ j, c i * c j * k (pre.data i) (pre.data j)) (hu : UniformWeights pre.weights)
    (reg : SteinReg n ℝ) (hlap : ∀ j, 0 ≤ reg.lap j) (δ : ℝ)
    (hδ : ∀ i j, 0 < pre.weights i → 0 < pre.weights j → reg.logp i - reg.logp j ≤ δ)
    (ord : List (Fin (size + (size - size)))) (hord : ∀ t, t ∈ ord) (hpos : PosCount pre.weights size)
    (R : ℝ) (hR : ∀ j, 0 < pre.weights j → k (pre.data j) (pre.data j) + reg.lap j ≤ R) :
    ∃ f : Fin size → Fin n, steinReduce big k true bs size pre (some reg) ord = .ok ⟨fun t => (f t : ℤ), fun _ => 1⟩ ∧
      ksd k (fun t => pre.data (f t)) (fun _ => 1) ≤ ksd k pre.data pre.weights + Real.sqrt ((R + δ * (size + 1) / 2) / size) := by
  obtain ⟨f, h1, h2, -⟩ := C15_reduce_greedy big k true bs hbs size hsize pre (some reg) ord hord hpos
  refine ⟨f, h1, ?_⟩
  obtain ⟨u, hu0, hu⟩ := hu
  obtain ⟨j0, hj0⟩ := Finset.card_pos.1 (lt_of_lt_of_le hsize hpos)
  have hw0 := (Finset.mem_filter.1 hj0).2
  have hδ0 : 0 ≤ δ := by
    have := hδ j0 j0 hw0 hw0
    linarith
  have hR0 : 0 ≤ R := by
    refine le_trans (add_nonneg ?_ (hlap j0)) (hR j0 hw0)
    have := hpsd (Pi.single j0 1)
    simpa [Pi.single_apply] using this
  have hrun := fun i hi => Rate.stein_of_reduce_reg h2 i hi
  have := Rate.sumPair_le_unique_slack k hk pre.data hpsd pre.weights u hu0 hu (Rate.seq f) size (Rate.steinPen reg.lap reg.logp)
    (fun i => R + δ * ((i : ℝ) + 1)) (fun i => by positivity)
    (fun i hi => (hrun i hi).1) (fun i hi => (hrun i hi).2.1 rfl)
    (fun i hi j hj hju => (hrun i hi).2.2 j hj fun _ => hju)
    (fun i hi j hj => by
      have h3 := hδ (Rate.seq f i) j (hrun i hi).1 hj
      have h4 := hlap (Rate.seq f i)
      have h5 := hR j hj
      have h6 : ((i : ℝ) + 1) * (reg.logp (Rate.seq f i) - reg.logp j) ≤ ((i : ℝ) + 1) * δ := mul_le_mul_of_nonneg_left h3 (by positivity)
      unfold Rate.steinPen
      nlinarith) size le_rfl
  rw [Rate.sum_stein_slack] at this
  exact Rate.ksd_le hsize f (Real.sqrt_nonneg _) (by positivity) this

example := C112_rate 1000 (fun a b : ℝ => 1 + a * b) (fun a b => by ring) (.leaf none) (.inl rfl) 2 (by norm_num) (⟨![1, 2, -4], ![1, 1, 1]⟩ : Data 3 ℝ ℝ)
  (fun c => ((isPSD_const zero_le_one).add (isPSD_rankOne fun x : ℝ => x)).2 _ _ c) ⟨![0, 1, 2], ![-1, -2, -3]⟩ (by intro j; fin_cases j <;> simp) 2
  (by intro i j _ _; fin_cases i <;> fin_cases j <;> norm_num) [0, 1] (by decide) (by simp [PosCount, Finset.filter_true_of_mem, Fin.forall_fin_succ])

example := C112_rate_unique 1000 (fun a b : ℝ => 1 + a * b) (fun a b => by ring) (.leaf none) (.inl rfl) 2 (by norm_num) (⟨![1, 2, -4], ![1, 1, 1]⟩ : Data 3 ℝ ℝ)
  (fun c => ((isPSD_const zero_le_one).add (isPSD_rankOne fun x : ℝ => x)).2 _ _ c) ⟨1, by norm_num, by intro i; fin_cases i <;> simp⟩
  ⟨![0, 1, 2], ![-1, -2, -3]⟩ (by intro j; fin_cases j <;> simp) 2
  (by intro i j _ _; fin_cases i <;> fin_cases j <;> norm_num) [0, 1] (by decide) (by simp [PosCount, Finset.filter_true_of_mem, Fin.forall_fin_succ])
  19 (by intro j _; fin_cases j <;> norm_num)

/-- C112: a regularisation that is too strong.  If the regularised log density of one row exceeds all others by four times the bound of the kernel
then, with repeated points allowed, every point of the coreset is that row, whatever the size. -/
theorem C112_concentrates (big : ℝ) (k : X → X → ℝ) (bs : PyTree (Option ℤ)) (hbs : ValidBlock bs) (size : ℕ) (hsize : 0 < size)
    (pre : Data n X ℝ) (R : ℝ) (hR : ∀ i j, |k (pre.data i) (pre.data j)| ≤ R) (reg : SteinReg n ℝ) (a : Fin n) (ha : 0 < pre.weights a)
    (hlap : ∀ j, 0 < pre.weights j → reg.lap a ≤ reg.lap j) (hgap : ∀ j, 0 < pre.weights j → j ≠ a → 4 * R < reg.logp a - reg.logp j)
    (ord : List (Fin (size + (size - size)))) (hord : ∀ t, t ∈ ord) (hpos : PosCount pre.weights size) :
    steinReduce big k false bs size pre (some reg) ord = .ok ⟨fun _ => (a : ℤ), fun _ => 1⟩ := by
  obtain ⟨f, h1, h2, -⟩ := C15_reduce_greedy big k false bs hbs size hsize pre (some reg) ord hord hpos
  suffices h : ∀ i, f i = a by rw [h1]; simp only [h]
  intro i
  by_contra hne
  obtain ⟨hw, -, h3⟩ := Rate.stein_of_reduce_reg h2 i i.2
  rw [Rate.seq_fin] at hw h3
  have h4 := h3 a ha (by simp)
  have hl : reg.lap a ≤ reg.lap (f i) := hlap _ hw
  have hg : 4 * R < reg.logp a - reg.logp (f i) := hgap _ hw hne
  have hs : ∀ j : Fin n, |∑ t ∈ Finset.range (i : ℕ), k (pre.data j) (pre.data (Rate.seq f t))| ≤ i * R := by
    intro j
    refine (Finset.abs_sum_le_sum_abs _ _).trans ?_
    have := Finset.sum_le_card_nsmul (Finset.range (i : ℕ)) (fun t => |k (pre.data j) (pre.data (Rate.seq f t))|) R (fun t _ => hR _ _)
    simpa using this
  have a1 := abs_le.1 (hs a)
  have a2 := abs_le.1 (hs (f i))
  have b1 := abs_le.1 (hR a a)
  have b2 := abs_le.1 (hR (f i) (f i))
  have hip : (0 : ℝ) < (i : ℕ) + 1 := by positivity
  have h5 := mul_lt_mul_of_pos_left hg hip
  have hR0 : 0 ≤ R := (abs_nonneg _).trans (hR a a)
  unfold Rate.steinObj Rate.steinPen at h4
  change _ + (reg.lap (f i) - (((i : ℕ) : ℝ) + 1) * reg.logp (f i)) ≤ _ + (reg.lap a - (((i : ℕ) : ℝ) + 1) * reg.logp a) at h4
  nlinarith

example := C112_concentrates 1000 (fun a b : ℝ => a * b) (.leaf none) (.inl rfl) 3 (by norm_num) (⟨![1, -1, 1], ![1, 1, 1]⟩ : Data 3 ℝ ℝ) 1
  (by intro i j; fin_cases i <;> fin_cases j <;> norm_num) ⟨fun _ => 0, ![0, -5, -6]⟩ 0 (by norm_num) (fun _ _ => le_rfl)
  (by intro j _ hj; fin_cases j <;> simp_all <;> norm_num) [0, 1, 2] (by decide) (by simp [PosCount, Finset.filter_true_of_mem, Fin.forall_fin_succ])

variable {d : ℕ}

/-- The Laplace correction is never negative. -/
theorem laplacePositive_nonneg (score : Vec d → Vec d) (x : Vec d) : 0 ≤ laplacePositive score x :=
  Finset.sum_nonneg fun _ _ => le_max_right _ _

/-- C112, end to end with the default `regulariser_lambda = 1 / len(coresubset)`: on equally weighted data `KSD.compute` of the coreset exceeds that of
the data by at most `sqrt ((R + log n (size + 1) / (2 size)) / size)`, where `R` bounds the diagonal of the Stein kernel plus the Laplace correction.
The density estimate therefore costs no more than `log n` in the numerator, whatever the bandwidth. -/
theorem C112_default (big : ℝ) (K : KExpr d) (score : Vec d → Vec d) (hc : K.check = .ok ()) (hd : K.PsdDomain) (hs : K.Smooth)
    (sm : Option (Vec d → Vec d)) (S : KExpr d) (unique : Bool) (bs bs' : PyTree (Option ℤ)) (hbs : ValidBlock bs) (hbs' : ValidBlock bs')
    (size : ℕ) (hsize : 0 < size) (hle : size ≤ n) (x : Fin n → Vec d) {u : ℝ} (hu : 0 < u) (W : Fin d → Fin d → ℝ)
    (hS : convertStein big x (.stein K score) sm = .ok S)
    (ord : List (Fin (size + (size - size)))) (hord : ∀ t, t ∈ ord)
    (R : ℝ) (hR : ∀ j, (KExpr.stein K score).sem.compute (x j) (x j) + laplacePositive S.scoreFunction (x j) ≤ R) :
    ∃ f : Fin size → Fin n, ∃ r r',
      steinThinningReduce big (.stein K score) sm unique ⟨true, none, fun j => kdeLogpdf W (fun _ => u) x (x j)⟩ bs size ⟨x, fun _ => u⟩ ord
        = .ok ⟨fun t => (f t : ℤ), fun _ => 1⟩ ∧
      ksdCompute big (KExpr.stein K score).sem.compute ⟨fun t => x (f t), fun _ => (1 : ℝ)⟩ bs' none none = .ok r ∧
      ksdCompute big (KExpr.stein K score).sem.compute ⟨x, fun _ => u⟩ bs' none none = .ok r' ∧
      r ≤ r' + Real.sqrt ((R + Real.log n * (size + 1) / (2 * size)) / size) := by
  have hpsd := C35_psd K score hc hd hs
  set k := (KExpr.stein K score).sem.compute with hk
  have hs' : (0 : ℝ) < size := by positivity
  have hW : 0 < ∑ _j : Fin n, u := by
    have := NeZero.pos n
    simp only [Finset.sum_const, Finset.card_univ, Fintype.card_fin, nsmul_eq_mul]
    positivity
  have hpos : PosCount (fun _ : Fin n => u) size := by simpa [PosCount, hu] using hle
  set reg : SteinReg n ℝ := ⟨fun j => laplacePositive S.scoreFunction (x j), fun j => 1 / (size : ℝ) * kdeLogpdf W (fun _ => u) x (x j)⟩ with hreg
  have hδ : ∀ i j, 0 < u → 0 < u → reg.logp i - reg.logp j ≤ Real.log n / size := by
    intro i j _ _
    have := (abs_le.1 (C105_regularisation W hu x i j).1).2
    change 1 / (size : ℝ) * _ - 1 / (size : ℝ) * _ ≤ _
    rw [← mul_sub, one_div_mul_eq_div]
    gcongr
  have e : Real.log n / size * (size + 1) / 2 = Real.log n * (size + 1) / (2 * size) := by field_simp
  have key : ∃ f : Fin size → Fin n, steinReduce big k unique bs size ⟨x, fun _ => u⟩ (some reg) ord = .ok ⟨fun t => (f t : ℤ), fun _ => 1⟩ ∧
      ksd k (fun t => x (f t)) (fun _ => 1) ≤ ksd k x (fun _ => u) + Real.sqrt ((R + Real.log n * (size + 1) / (2 * size)) / size) := by
    cases unique with
    | true =>
      rw [← e]
      exact C112_rate_unique big k hpsd.1 bs hbs size hsize ⟨x, fun _ => u⟩ (hpsd.2 n x) ⟨u, hu, fun _ => .inr rfl⟩ reg
        (fun j => laplacePositive_nonneg _ _) _ hδ ord hord hpos R (fun j _ => hR j)
    | false =>
      obtain ⟨f, h1, h2⟩ := C112_rate big k hpsd.1 bs hbs size hsize ⟨x, fun _ => u⟩ (hpsd.2 n x) reg
        (fun j => laplacePositive_nonneg _ _) _ hδ ord hord hpos
      refine ⟨f, h1, (h2 (fun _ => u) (fun _ => hu.le) hW fun _ _ => hu).trans ?_⟩
      rw [← e]
      have h3 := Rate.avg_le (fun _ => u) (fun _ => hu.le) hW (fun j => k (x j) (x j) + reg.lap j) R (fun j _ => hR j)
      have h4 : avg (fun _ => u) (fun j => k (x j) (x j) + reg.lap j) = (avg (fun _ => u) fun j => k (x j) (x j)) + avg (fun _ => u) reg.lap := by
        unfold avg
        rw [← add_div, ← Finset.sum_add_distrib]
        congr 1
        exact Finset.sum_congr rfl fun _ _ => by ring
      rw [h4] at h3
      gcongr
  obtain ⟨f, h1, h2⟩ := key
  have hred : steinThinningReduce big (.stein K score) sm unique ⟨true, none, fun j => kdeLogpdf W (fun _ => u) x (x j)⟩ bs size ⟨x, fun _ => u⟩ ord
      = steinReduce big k unique bs size ⟨x, fun _ => u⟩ (some reg) ord := by
    unfold steinThinningReduce steinReduce steinThinningRefine
    rw [hS]
    cases (initialCoresubset 0 size n : Except Err (Data size ℤ ℝ)) <;> rfl
  exact ⟨f, _, _, hred.trans h1, (C35_ksd_norm big k hpsd hsize ⟨fun t => x (f t), fun _ => (1 : ℝ)⟩ (by simp; omega) bs' hbs').1,
    (C35_ksd_norm big k hpsd (NeZero.pos n) ⟨x, fun _ => u⟩ hW.ne' bs' hbs').1, h2⟩

/-- The hypotheses are met: three points of the plane, a score given with the kernel. -/
example := C112_default (d := 2) (n := 3) 1000 (.squaredExponential 2 1) (fun y i => -y i) (by norm_num [KExpr.check, checkPos]; rfl) trivial trivial
  none (.stein (.squaredExponential 2 1) (fun y i => -y i)) true (.leaf none) (.leaf (some 2)) (.inl rfl) (.inl rfl) 2 (by norm_num) (by norm_num)
  ![![0, 0], ![1, 2], ![3, 4]] (u := 1) one_pos (fun k l => if k = l then 2 else 0) rfl [0, 1] (by decide)
  (∑ j, |(KExpr.stein (.squaredExponential 2 1) (fun y i => -y i)).sem.compute (![![0, 0], ![1, 2], ![3, 4]] j) (![![0, 0], ![1, 2], ![3, 4]] j)
    + laplacePositive (fun y i => -y i) (![![0, 0], ![1, 2], ![3, 4]] j)|)
  (fun j => (le_abs_self _).trans (Finset.single_le_sum (f := fun j => |(KExpr.stein (.squaredExponential 2 1) (fun y i => -y i)).sem.compute
    ((![![0, 0], ![1, 2], ![3, 4]] : Fin 3 → Vec 2) j) (![![0, 0], ![1, 2], ![3, 4]] j) + laplacePositive (fun y i => -y i) (![![0, 0], ![1, 2], ![3, 4]] j)|)
    (fun _ _ => abs_nonneg _) (Finset.mem_univ j)))

end Coreax
