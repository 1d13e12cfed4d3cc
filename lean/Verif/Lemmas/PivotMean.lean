import Verif.Lemmas.PivotRun

/-!
# The expected residual of randomly pivoted Cholesky
-/

set_option linter.unusedSectionVars false

namespace Coreax

open Spec MeasureTheory

/-- The part outside an orthonormal family is not negative. -/
theorem tail_nonneg {n r : ℕ} {q : Fin r → Fin n → ℝ} (hq : Spec.Orthonormal q) {R : Fin n → Fin n → ℝ} (hR : NonnegForm R)
    (hs : ∀ i j, R i j = R j i) : 0 ≤ tail R q := by
  have h : ∀ S : Finset (Fin n), ∃ R' : Fin n → Fin n → ℝ, NonnegForm R' ∧ (∀ i j, R' i j = R' j i) ∧ tail R' q ≤ tail R q ∧
      ∀ p ∈ S, R' p p = 0 := by
    intro S
    induction S using Finset.induction_on with
    | empty => exact ⟨R, hR, hs, le_rfl, fun p hp => absurd hp (Finset.notMem_empty p)⟩
    | insert p S _ ih =>
      obtain ⟨R', h1, h2, h3, h4⟩ := ih
      refine ⟨pivotOut R' p, pivotOut_psd h1 h2 p, pivotOut_symm h2 p, (tail_pivotOut hq h1 p).trans h3, fun b hb => ?_⟩
      rcases Finset.mem_insert.1 hb with rfl | hb
      · unfold pivotOut
        by_cases h0 : R' b b = 0
        · simp [h0]
        · field_simp; ring
      · unfold pivotOut
        have h0 := NonnegForm.row_zero h1 h2 (h4 b hb) p
        simp [h0, h4 b hb]
  obtain ⟨R', h1, h2, h3, h4⟩ := h Finset.univ
  have h0 : R' = fun _ _ => 0 := eq_zero_of_trace h1 h2 (Finset.sum_eq_zero fun p hp => h4 p hp)
  have : tail R' q = 0 := by subst h0; simp [tail, captured, form, trace]
  linarith

theorem captured_nonneg {n r : ℕ} (q : Fin r → Fin n → ℝ) {R : Fin n → Fin n → ℝ} (hR : NonnegForm R) : 0 ≤ captured R q :=
  Finset.sum_nonneg fun a _ => hR (q a)

theorem captured_zero {n r : ℕ} (q : Fin r → Fin n → ℝ) : captured (fun _ _ => 0) q = 0 := by simp [captured, form]

theorem tail_zero {n r : ℕ} (q : Fin r → Fin n → ℝ) : tail (fun _ _ => 0) q = 0 := by simp [tail, captured, form, trace]

theorem pivotOut_zero {n : ℕ} (p : Fin n) : pivotOut (fun _ _ => (0 : ℝ)) p = fun _ _ => 0 := by
  funext a b; simp [pivotOut]

/-- `recursion_bound` with the step only up to `T`. -/
theorem recursion_bound_upto {a : ℕ → ℝ} {r b ε : ℝ} (hr : 1 ≤ r) (hb : 0 < b) (hε : 0 < ε) (h0 : ∀ i, 0 ≤ a i) (T : ℕ)
    (hstep : ∀ i, i < T → a (i + 1) ≤ a i - a i ^ 2 / (r * (a i + b))) (hT : r / ε + r * Real.log (a 0 / (ε * b)) ≤ T) : a T ≤ ε * b := by
  have key : ∀ v : ℝ, 0 ≤ v → 0 ≤ v - v ^ 2 / (r * (v + b)) := by
    intro v hv
    rw [sub_nonneg, div_le_iff₀ (by positivity)]
    nlinarith [mul_nonneg hv hb.le, mul_nonneg hv hv, mul_nonneg (mul_nonneg hv hv) (sub_nonneg.2 hr), mul_nonneg (mul_nonneg hv hb.le) (sub_nonneg.2 hr)]
  have := recursion_bound (a := fun i => if i ≤ T then a i else 0) (by linarith : 0 < r) hb hε
    (fun i => by beta_reduce; split_ifs; exacts [h0 i, le_rfl]) (fun i => by
      beta_reduce
      by_cases h1 : i + 1 ≤ T
      · rw [if_pos h1, if_pos (by omega)]; exact hstep i (by omega)
      · rw [if_neg h1]
        split_ifs with h2
        · exact key _ (h0 i)
        · exact key 0 le_rfl) T (by simpa using hT)
  simpa using this

section
variable {X U : Type} {n size : ℕ} [NeZero n] [MeasurableSpace U] (μ : Measure U) (D : U → (Fin n → Ext ℝ) → ℤ)
  (k : X → X → ℝ) (x : Fin n → X) (unique : Bool)

/-- The probability of a pivot in a state. -/
noncomputable def pivotProb (σ : RPCState n size ℝ) (p : Fin n) : ℝ := μ.real {u | D u (validResiduals σ) = (p : ℤ)}

/-- The probability of the first `i` pivots. -/
noncomputable def pathProb (size : ℕ) (s : ℕ → Fin n) (i : ℕ) : ℝ :=
  ∏ t ∈ Finset.range i, pivotProb μ D (pst k x unique s t : RPCState n size ℝ) (s t)

/-- A finite sequence of pivots as a sequence. -/
def extend {i : ℕ} (s : Fin i → Fin n) : ℕ → Fin n := fun t => if h : t < i then s ⟨t, h⟩ else 0

theorem extend_snoc_lt {i : ℕ} (s : Fin i → Fin n) (p : Fin n) {t : ℕ} (ht : t < i) :
    extend (Fin.snoc (α := fun _ => Fin n) s p) t = extend s t := by
  unfold extend
  rw [dif_pos (by omega), dif_pos ht]
  exact Fin.snoc_castSucc (α := fun _ => Fin n) p s ⟨t, ht⟩

theorem extend_snoc_last {i : ℕ} (s : Fin i → Fin n) (p : Fin n) : extend (Fin.snoc (α := fun _ => Fin n) s p) i = p := by
  unfold extend
  rw [dif_pos (by omega)]
  exact Fin.snoc_last (α := fun _ => Fin n) p s

theorem pivotProb_nonneg (σ : RPCState n size ℝ) (p : Fin n) : 0 ≤ pivotProb μ D σ p := measureReal_nonneg

theorem pathProb_nonneg (s : ℕ → Fin n) (i : ℕ) : 0 ≤ pathProb μ D k x unique size s i :=
  Finset.prod_nonneg fun _ _ => pivotProb_nonneg μ D _ _

theorem pathProb_congr {s s' : ℕ → Fin n} {i : ℕ} (h : ∀ t, t < i → s t = s' t) :
    pathProb μ D k x unique size s i = pathProb μ D k x unique size s' i := by
  refine Finset.prod_congr rfl fun t ht => ?_
  have ht := Finset.mem_range.1 ht
  rw [pst_congr k x unique (fun u hu => h u (by omega)), h t ht]

/-- The mean of a function of the residual matrix after `i` steps. -/
noncomputable def meanAfter (size : ℕ) (g : (Fin n → Fin n → ℝ) → ℝ) (i : ℕ) : ℝ :=
  ∑ s : Fin i → Fin n, pathProb μ D k x unique size (extend s) i * g (resid (fun a b => k (x a) (x b)) (extend s) i)

theorem meanAfter_zero (g : (Fin n → Fin n → ℝ) → ℝ) : meanAfter μ D k x unique size g 0 = g fun a b => k (x a) (x b) := by
  simp [meanAfter, pathProb, resid]

theorem meanAfter_succ (g : (Fin n → Fin n → ℝ) → ℝ) (i : ℕ) :
    meanAfter μ D k x unique size g (i + 1) = ∑ s : Fin i → Fin n, pathProb μ D k x unique size (extend s) i *
      ∑ p, pivotProb μ D (pst k x unique (extend s) i : RPCState n size ℝ) p * g (pivotOut (resid (fun a b => k (x a) (x b)) (extend s) i) p) := by
  unfold meanAfter
  rw [← Equiv.sum_comp (Fin.snocEquiv fun _ : Fin (i + 1) => Fin n), Fintype.sum_prod_type, Finset.sum_comm]
  refine Finset.sum_congr rfl fun s _ => ?_
  rw [Finset.mul_sum]
  refine Finset.sum_congr rfl fun p _ => ?_
  have e : (Fin.snocEquiv fun _ : Fin (i + 1) => Fin n) (p, s) = Fin.snoc (α := fun _ => Fin n) s p := rfl
  rw [e, pathProb, Finset.prod_range_succ, ← pathProb, resid, extend_snoc_last,
    pathProb_congr μ D k x unique (fun t ht => extend_snoc_lt s p ht), pst_congr k x unique (fun t ht => extend_snoc_lt s p ht),
    resid_congr (fun t ht => extend_snoc_lt s p ht), mul_assoc]

variable {μ D k}

theorem good_of_prob (hD : PivotLaw μ D) (hk : IsPSD k) (hs : size ≤ n) {s : ℕ → Fin n} {i : ℕ} (hi : i ≤ size)
    (h : pathProb μ D k x unique size s i ≠ 0) : Good k x unique i (pst k x unique s i : RPCState n size ℝ) (resid (fun a b => k (x a) (x b)) s i) := by
  induction i with
  | zero => exact good_init k x unique hk
  | succ i ih =>
    rw [pathProb, Finset.prod_range_succ, ← pathProb] at h
    have hG := ih (by omega) (left_ne_zero_of_mul h)
    have hne : {u | D u (validResiduals (pst k x unique s i : RPCState n size ℝ)) = ((s i : Fin n) : ℤ)}.Nonempty := by
      rw [Set.nonempty_iff_ne_empty]
      intro h0
      refine right_ne_zero_of_mul h ?_
      rw [pivotProb, h0, measureReal_empty]
    obtain ⟨u, hu⟩ := hne
    have hdraw : (fun (_ : ℕ) => D u) ((⟨i, by omega⟩ : Fin size) : ℕ) (validResiduals (pst k x unique s i : RPCState n size ℝ)) = ((s i : Fin n) : ℤ) := hu
    have := good_step k x unique hk hs (hD.contract u) (i := ⟨i, by omega⟩) hG hdraw
    rw [pst, stepTo, dif_pos (by omega), resid]
    rwa [rpcBody_forced k x unique hdraw] at this

theorem pivotProb_live (hD : PivotLaw μ D) {i : ℕ} {σ : RPCState n size ℝ} {R : Fin n → Fin n → ℝ} (h : Good k x unique i σ R)
    (hR : NonnegForm R) (hT : 0 < trace R) (p : Fin n) : pivotProb μ D σ p = R p p / trace R := by
  rw [pivotProb, good_live k x unique h hT]
  exact hD.law (fun j => R j j) (fun j => NonnegForm.diag hR j) hT p

section
variable (hD : PivotLaw μ D) (hk : IsPSD k) (hs : size ≤ n) {r : ℕ} {q : Fin r → Fin n → ℝ} (hq : Spec.Orthonormal q)
include hD hk hs hq

theorem mean_captured_step {i : ℕ} (hi : i < size) (s : ℕ → Fin n) :
    pathProb μ D k x unique size s i * ∑ p, pivotProb μ D (pst k x unique s i : RPCState n size ℝ) p *
      captured (pivotOut (resid (fun a b => k (x a) (x b)) s i) p) q ≤
    pathProb μ D k x unique size s i * (captured (resid (fun a b => k (x a) (x b)) s i) q -
      captured (resid (fun a b => k (x a) (x b)) s i) q ^ 2 / (r * trace (resid (fun a b => k (x a) (x b)) s i))) := by
  by_cases h0 : pathProb μ D k x unique size s i = 0
  · rw [h0]; simp
  refine mul_le_mul_of_nonneg_left ?_ (pathProb_nonneg μ D k x unique s i)
  have hG := good_of_prob x unique hD hk hs hi.le h0
  obtain ⟨hR, hsym⟩ := resid_psd (G := fun a b => k (x a) (x b)) (fun c => by simpa using hk.2 n x c) (fun _ _ => hk.1 _ _) s i
  have hT : 0 ≤ trace (resid (fun a b => k (x a) (x b)) s i) := Finset.sum_nonneg fun j _ => NonnegForm.diag hR j
  rcases hT.lt_or_eq with hT | hT
  · simp only [pivotProb_live x unique hD hG hR hT]
    exact captured_expected hq hR hsym hT
  · rw [eq_zero_of_trace hR hsym hT.symm]
    simp [pivotOut_zero, captured_zero]

theorem mean_tail_step {i : ℕ} (hi : i < size) (s : ℕ → Fin n) :
    pathProb μ D k x unique size s i * ∑ p, pivotProb μ D (pst k x unique s i : RPCState n size ℝ) p *
      tail (pivotOut (resid (fun a b => k (x a) (x b)) s i) p) q ≤
    pathProb μ D k x unique size s i * tail (resid (fun a b => k (x a) (x b)) s i) q := by
  by_cases h0 : pathProb μ D k x unique size s i = 0
  · rw [h0]; simp
  refine mul_le_mul_of_nonneg_left ?_ (pathProb_nonneg μ D k x unique s i)
  have hG := good_of_prob x unique hD hk hs hi.le h0
  obtain ⟨hR, hsym⟩ := resid_psd (G := fun a b => k (x a) (x b)) (fun c => by simpa using hk.2 n x c) (fun _ _ => hk.1 _ _) s i
  have hT : 0 ≤ trace (resid (fun a b => k (x a) (x b)) s i) := Finset.sum_nonneg fun j _ => NonnegForm.diag hR j
  rcases hT.lt_or_eq with hT | hT
  · simp only [pivotProb_live x unique hD hG hR hT]
    calc _ ≤ ∑ p, resid (fun a b => k (x a) (x b)) s i p p / trace (resid (fun a b => k (x a) (x b)) s i) *
          tail (resid (fun a b => k (x a) (x b)) s i) q :=
          Finset.sum_le_sum fun p _ => mul_le_mul_of_nonneg_left (tail_pivotOut hq hR p) (div_nonneg (NonnegForm.diag hR p) hT.le)
      _ = _ := by
          rw [← Finset.sum_mul, ← Finset.sum_div]
          change trace _ / trace _ * _ = _
          rw [div_self hT.ne', one_mul]
  · rw [eq_zero_of_trace hR hsym hT.symm]
    simp [pivotOut_zero, tail_zero]

theorem meanAfter_tail_le {i : ℕ} (hi : i ≤ size) :
    meanAfter μ D k x unique size (fun R => tail R q) i ≤ tail (fun a b => k (x a) (x b)) q := by
  induction i with
  | zero => rw [meanAfter_zero]
  | succ i ih =>
    refine le_trans ?_ (ih (by omega))
    rw [meanAfter_succ]
    exact Finset.sum_le_sum fun s _ => mean_tail_step x unique hD hk hs hq (by omega) _

omit hD hs hq in
theorem meanAfter_nonneg {g : (Fin n → Fin n → ℝ) → ℝ} (hg : ∀ R, NonnegForm R → (∀ i j, R i j = R j i) → 0 ≤ g R) (i : ℕ) :
    0 ≤ meanAfter μ D k x unique size g i :=
  Finset.sum_nonneg fun s _ => mul_nonneg (pathProb_nonneg μ D k x unique _ i) (by
    obtain ⟨hR, hsym⟩ := resid_psd (G := fun a b => k (x a) (x b)) (fun c => by simpa using hk.2 n x c) (fun _ _ => hk.1 _ _) (extend s) i
    exact hg _ hR hsym)

omit hD hk hs hq in
theorem meanAfter_trace (i : ℕ) : meanAfter μ D k x unique size trace i =
    meanAfter μ D k x unique size (fun R => captured R q) i + meanAfter μ D k x unique size (fun R => tail R q) i := by
  unfold meanAfter
  rw [← Finset.sum_add_distrib]
  refine Finset.sum_congr rfl fun s _ => ?_
  unfold tail
  ring

theorem meanAfter_captured_step (hr : 0 < r) {i : ℕ} (hi : i < size) :
    meanAfter μ D k x unique size (fun R => captured R q) (i + 1) ≤ meanAfter μ D k x unique size (fun R => captured R q) i -
      meanAfter μ D k x unique size (fun R => captured R q) i ^ 2 /
        (r * (meanAfter μ D k x unique size (fun R => captured R q) i + tail (fun a b => k (x a) (x b)) q)) := by
  have hr' : (0 : ℝ) < r := by exact_mod_cast hr
  have hA := meanAfter_nonneg (size := size) (μ := μ) (D := D) x unique hk (g := fun R => captured R q) (fun R hR _ => captured_nonneg q hR) i
  have hB := meanAfter_nonneg (size := size) (μ := μ) (D := D) x unique hk (g := fun R => tail R q) (fun R hR h => tail_nonneg hq hR h) i
  have hB2 := meanAfter_tail_le x unique hD hk hs hq hi.le
  have htr := meanAfter_trace (size := size) (μ := μ) (D := D) (k := k) x unique (q := q) i
  -- Cauchy–Schwarz
  have hcs : meanAfter μ D k x unique size (fun R => captured R q) i ^ 2 ≤
      (∑ s : Fin i → Fin n, pathProb μ D k x unique size (extend s) i * (captured (resid (fun a b => k (x a) (x b)) (extend s) i) q ^ 2 /
        trace (resid (fun a b => k (x a) (x b)) (extend s) i))) * meanAfter μ D k x unique size trace i := by
    unfold meanAfter
    refine Finset.sum_sq_le_sum_mul_sum_of_sq_le_mul _ (fun s _ => ?_) (fun s _ => ?_) (fun s _ => ?_)
    all_goals
      obtain ⟨hR, hsym⟩ := resid_psd (G := fun a b => k (x a) (x b)) (fun c => by simpa using hk.2 n x c) (fun _ _ => hk.1 _ _) (extend s) i
      have hT : 0 ≤ trace (resid (fun a b => k (x a) (x b)) (extend s) i) := Finset.sum_nonneg fun j _ => NonnegForm.diag hR j
      have hw := pathProb_nonneg (size := size) μ D k x unique (extend s) i
    · positivity
    · positivity
    · refine le_of_eq ?_
      rcases hT.lt_or_eq with hT | hT
      · field_simp
      · rw [eq_zero_of_trace hR hsym hT.symm]
        beta_reduce
        rw [captured_zero]
        simp
  have h1 : meanAfter μ D k x unique size (fun R => captured R q) (i + 1) ≤ meanAfter μ D k x unique size (fun R => captured R q) i -
      (∑ s : Fin i → Fin n, pathProb μ D k x unique size (extend s) i * (captured (resid (fun a b => k (x a) (x b)) (extend s) i) q ^ 2 /
        trace (resid (fun a b => k (x a) (x b)) (extend s) i))) / r := by
    rw [meanAfter_succ]
    refine (Finset.sum_le_sum fun s _ => mean_captured_step x unique hD hk hs hq hi (extend s)).trans (le_of_eq ?_)
    rw [meanAfter, Finset.sum_div, ← Finset.sum_sub_distrib]
    refine Finset.sum_congr rfl fun s _ => ?_
    rw [mul_sub, mul_div_assoc, div_div, mul_comm (trace _) (r : ℝ)]
  refine h1.trans (sub_le_sub_left ?_ _)
  rw [mul_comm (r : ℝ), ← div_div]
  refine div_le_div_of_nonneg_right ?_ hr'.le
  set A := meanAfter μ D k x unique size (fun R => captured R q) i
  set b := tail (fun a b => k (x a) (x b)) q
  rcases hA.lt_or_eq with hA' | hA'
  · rw [div_le_iff₀ (by linarith)]
    refine hcs.trans (mul_le_mul_of_nonneg_left (by rw [htr]; linarith) ?_)
    refine Finset.sum_nonneg fun s _ => ?_
    obtain ⟨hR, hsym⟩ := resid_psd (G := fun a b => k (x a) (x b)) (fun c => by simpa using hk.2 n x c) (fun _ _ => hk.1 _ _) (extend s) i
    exact mul_nonneg (pathProb_nonneg μ D k x unique _ i) (div_nonneg (sq_nonneg _) (Finset.sum_nonneg fun j _ => NonnegForm.diag hR j))
  · rw [← hA']
    simp only [ne_eq, OfNat.ofNat_ne_zero, not_false_eq_true, zero_pow, zero_div]
    refine Finset.sum_nonneg fun s _ => ?_
    obtain ⟨hR, hsym⟩ := resid_psd (G := fun a b => k (x a) (x b)) (fun c => by simpa using hk.2 n x c) (fun _ _ => hk.1 _ _) (extend s) i
    exact mul_nonneg (pathProb_nonneg μ D k x unique _ i) (div_nonneg (sq_nonneg _) (Finset.sum_nonneg fun j _ => NonnegForm.diag hR j))

/-- The mean of the residual trace. -/
theorem meanAfter_bound (hr : 0 < r) {ε : ℝ} (hε : 0 < ε) (hb : 0 < tail (fun a b => k (x a) (x b)) q)
    (hT : r / ε + r * Real.log (captured (fun a b => k (x a) (x b)) q / (ε * tail (fun a b => k (x a) (x b)) q)) ≤ size) :
    meanAfter μ D k x unique size trace size ≤ (1 + ε) * tail (fun a b => k (x a) (x b)) q := by
  have hA := fun i => meanAfter_nonneg (size := size) (μ := μ) (D := D) x unique hk (g := fun R => captured R q) (fun R hR _ => captured_nonneg q hR) i
  have h := recursion_bound_upto (r := r) (by exact_mod_cast hr) hb hε hA size
    (fun i hi => meanAfter_captured_step x unique hD hk hs hq hr hi) (by rw [meanAfter_zero]; exact hT)
  have h2 := meanAfter_tail_le x unique hD hk hs hq le_rfl
  rw [meanAfter_trace x unique (q := q)]
  linarith

/-- With nothing outside the family the mean residual trace decays geometrically. -/
theorem meanAfter_geometric (hr : 0 < r) (hb : tail (fun a b => k (x a) (x b)) q = 0) {i : ℕ} (hi : i ≤ size) :
    meanAfter μ D k x unique size trace i ≤ (1 - 1 / (r : ℝ)) ^ i * trace fun a b => k (x a) (x b) := by
  have hr' : (1 : ℝ) ≤ r := by exact_mod_cast hr
  have hA := fun i => meanAfter_nonneg (size := size) (μ := μ) (D := D) x unique hk (g := fun R => captured R q) (fun R hR _ => captured_nonneg q hR) i
  have h2 := meanAfter_tail_le x unique hD hk hs hq hi
  rw [meanAfter_trace x unique (q := q)]
  have h3 : meanAfter μ D k x unique size (fun R => captured R q) i ≤ (1 - 1 / (r : ℝ)) ^ i * captured (fun a b => k (x a) (x b)) q := by
    clear h2
    induction i with
    | zero => rw [meanAfter_zero]; simp
    | succ i ih =>
      have h := meanAfter_captured_step x unique hD hk hs hq hr (i := i) (by omega)
      rw [hb, add_zero] at h
      refine h.trans ?_
      rw [pow_succ (1 - 1 / (r : ℝ)) i, mul_right_comm]
      refine le_trans (le_of_eq ?_) (mul_le_mul_of_nonneg_right (ih (by omega)) (sub_nonneg.2 ((div_le_one (by linarith)).2 hr')))
      rcases (hA i).lt_or_eq with h0 | h0
      · field_simp
      · rw [← h0]; simp
  have h4 : captured (fun a b => k (x a) (x b)) q = trace fun a b => k (x a) (x b) := by
    unfold tail at hb; linarith
  rw [h4] at h3
  linarith

end
end

end Coreax
