import Verif.Lemmas.PivotMean
import Mathlib.MeasureTheory.Measure.Lebesgue.Basic

/-!
# C53: the expected error of randomly pivoted Cholesky
-/

set_option linter.unusedSectionVars false

namespace Coreax

open Spec MeasureTheory

section
variable {X U : Type} {n size : ℕ} [NeZero n] [MeasurableSpace U] {μ : Measure U} [IsProbabilityMeasure μ] {D : U → (Fin n → Ext ℝ) → ℤ}
  {k : X → X → ℝ} (x : Fin n → X) (unique : Bool)

theorem exists_pivots (hD : PivotLaw μ D) (hk : IsPSD k) (hs : size ≤ n) (ω : Fin size → U) :
    ∃ s : Fin size → Fin n, ∀ i, (rpcLoop Real.sqrt k x unique (drawOf D ω) size none (fun _ => (n : ℤ) + 1)).idx i = (s i : ℤ) := by
  obtain ⟨i, state, -, h⟩ := C16_distinct (size := size) Real.sqrt k x (fun j => by simpa using hk.2 1 (fun _ => x j) (fun _ => 1)) unique
    (drawOf D ω) (drawOf_contract hD ω) hs
  rw [rpcReduce_ok Real.sqrt k x unique (drawOf D ω) hs] at h
  simp only [Except.ok.injEq, Prod.mk.injEq] at h
  refine ⟨i, fun t => ?_⟩
  have := congrArg (fun d : Data size ℤ ℝ => d.data t) h.1
  exact this

/-- Along every run the state is good. -/
theorem good_run (hD : PivotLaw μ D) (hk : IsPSD k) (hs : size ≤ n) (ω : Fin size → U) {s : ℕ → Fin n}
    (h : ∀ i : Fin size, drawOf D ω i (validResiduals (pst k x unique s i : RPCState n size ℝ)) = (s i : ℤ)) {i : ℕ} (hi : i ≤ size) :
    Good k x unique i (pst k x unique s i : RPCState n size ℝ) (resid (fun a b => k (x a) (x b)) s i) := by
  induction i with
  | zero => exact good_init k x unique hk
  | succ i ih =>
    have hd := h ⟨i, by omega⟩
    have := good_step k x unique hk hs (drawOf_contract hD ω) (i := ⟨i, by omega⟩) (ih (by omega)) hd
    rw [pst, stepTo, dif_pos (by omega), resid]
    rwa [rpcBody_forced k x unique hd] at this

/-- The mean over runs of the error is the mean over paths. -/
theorem integral_error (hD : PivotLaw μ D) (hk : IsPSD k) (hs : size ≤ n) :
    ∃ err : (Fin size → U) → ℝ, Integrable err (Measure.pi fun _ => μ) ∧
      (∀ ω, ∃ c state A, rpcReduce Real.sqrt k x unique (drawOf D ω) size none = .ok (c, state) ∧
        IsNystrom (fun i j => k (x i) (x j)) {j | ∃ t, c.data t = (j : ℤ)} A ∧ err ω = ∑ j, (k (x j) (x j) - A j j)) ∧
      ∫ ω, err ω ∂(Measure.pi fun _ => μ) = meanAfter μ D k x unique size trace size := by
  classical
  choose piv hpiv using exists_pivots (size := size) x unique hD hk hs
  have hext : ∀ (s : Fin size → Fin n) (i : Fin size), extend s i = s i := fun s i => by simp [extend]
  have hrun : ∀ ω (s : Fin size → Fin n), piv ω = s ↔
      ∀ i, D (ω i) (validResiduals (pst k x unique (extend s) i : RPCState n size ℝ)) = (s i : ℤ) := by
    intro ω s
    have h := run_iff k x unique (drawOf D ω) (extend s) (size := size)
    simp only [hpiv ω, hext] at h
    have h2 : ∀ (i : Fin size) pr, drawOf D ω i pr = D (ω i) pr := fun i pr => by simp [drawOf]
    simp only [h2] at h
    rw [← h]
    constructor
    · rintro rfl i; rfl
    · intro h3; funext i
      exact Fin.ext (by exact_mod_cast h3 i)
  set g : (Fin size → Fin n) → ℝ := fun s => trace (resid (fun a b => k (x a) (x b)) (extend s) size) with hg
  have hset : ∀ s, {ω | piv ω = s} = Set.pi Set.univ fun i : Fin size => {u | D u (validResiduals (pst k x unique (extend s) i : RPCState n size ℝ)) = (s i : ℤ)} := by
    intro s; ext ω
    simp only [Set.mem_ofPred_eq, Set.mem_pi, Set.mem_univ, true_imp_iff]
    exact hrun ω s
  have hmeas : ∀ s, MeasurableSet {ω | piv ω = s} := fun s => by
    rw [hset s]
    exact MeasurableSet.univ_pi fun i => hD.meas _ _
  have hprob : ∀ s, (Measure.pi fun _ : Fin size => μ).real {ω | piv ω = s} = pathProb μ D k x unique size (extend s) size := by
    intro s
    rw [hset s, Measure.real, Measure.pi_pi, ENNReal.toReal_prod, pathProb, Finset.prod_range]
    refine Finset.prod_congr rfl fun i _ => ?_
    rw [pivotProb, hext]
    rfl
  have hdec : ∀ ω, g (piv ω) = ∑ s, {ω | piv ω = s}.indicator (fun _ => g s) ω := by
    intro ω
    rw [Finset.sum_eq_single (piv ω)]
    · simp
    · intro s _ hne
      exact Set.indicator_of_notMem (fun h => hne (by exact (show piv ω = s from h).symm)) _
    · simp
  have hint : ∀ s, Integrable ({ω | piv ω = s}.indicator fun _ => g s) (Measure.pi fun _ : Fin size => μ) :=
    fun s => (integrable_const (g s)).indicator (hmeas s)
  refine ⟨fun ω => g (piv ω), ?_, fun ω => ?_, ?_⟩
  · simp only [hdec]
    exact integrable_finsetSum _ fun s _ => hint s
  · have hok := rpcReduce_ok Real.sqrt k x unique (drawOf D ω) hs none
    obtain ⟨A, hA, -⟩ := C16_nystrom k hk x unique _ (drawOf_contract hD ω) hok
    refine ⟨_, _, A, hok, hA, ?_⟩
    have hgood := good_run x unique hD hk hs ω (s := extend (piv ω)) (fun i => by
      have := (hrun ω (piv ω)).1 rfl i
      rw [hext]
      simpa [drawOf] using this) le_rfl
    have hfin : (rpcLoop Real.sqrt k x unique (drawOf D ω) size none (fun _ => (n : ℤ) + 1)).idx =
        (pst k x unique (extend (piv ω)) size : RPCState n size ℝ).idx := by
      funext t
      have h1 := (run_iff k x unique (fun i _ => ((extend (piv ω) i : Fin n) : ℤ)) (extend (piv ω)) (size := size)).2 (fun i => rfl) t
      rw [hpiv ω t, ← hext (piv ω) t, ← h1]
      rw [rpcLoop_eq_dst]
      have h2 : ∀ i, i ≤ size → (dst k x unique (fun i _ => ((extend (piv ω) i : Fin n) : ℤ)) i : RPCState n size ℝ) = pst k x unique (extend (piv ω)) i := by
        intro i
        induction i with
        | zero => intro _; rfl
        | succ i ih =>
          intro hi
          rw [dst, dif_pos (show i < size by omega), pst, stepTo, dif_pos (show i < size by omega), ih (by omega)]
          exact rpcBody_forced k x unique rfl
      rw [h2 size le_rfl]
    have hA' : IsNystrom (fun i j => k (x i) (x j)) {j | ∃ t, (pst k x unique (extend (piv ω)) size : RPCState n size ℝ).idx t = (j : ℤ)} A := by
      rw [← hfin]; exact hA
    simp only [hg, trace]
    exact Finset.sum_congr rfl fun j _ => (good_nystrom k x unique hk hgood hA' j j).symm
  · simp only [hdec]
    rw [integral_finsetSum _ fun s _ => hint s, meanAfter]
    refine Finset.sum_congr rfl fun s _ => ?_
    rw [integral_indicator_const _ (hmeas s), hprob s, smul_eq_mul]

/-- The expected error (trace of the Gram matrix minus its Nyström approximation from the selected points) is at most `1 + ε` times what any
orthogonal family of `r` directions leaves over, once the coreset has `r / ε + r log (captured / (ε tail))` points: the best rank-`r`
approximation is matched up to `ε`.  If the family leaves nothing over (the Gram matrix has rank at most `r`), the expected error is at most
`(1 - 1/r) ^ size` times the trace. -/
theorem C53_expected_error (hD : PivotLaw μ D) (hk : IsPSD k) (hs : size ≤ n) :
    ∃ err : (Fin size → U) → ℝ, Integrable err (Measure.pi fun _ => μ) ∧
      (∀ ω, ∃ c state A, rpcReduce Real.sqrt k x unique (drawOf D ω) size none = .ok (c, state) ∧
        IsNystrom (fun i j => k (x i) (x j)) {j | ∃ t, c.data t = (j : ℤ)} A ∧ err ω = ∑ j, (k (x j) (x j) - A j j)) ∧
      ∀ (r : ℕ) (q : Fin r → Fin n → ℝ), 0 < r → Spec.Orthonormal q →
        (∀ ε > 0, 0 < tail (fun i j => k (x i) (x j)) q →
          r / ε + r * Real.log (captured (fun i j => k (x i) (x j)) q / (ε * tail (fun i j => k (x i) (x j)) q)) ≤ size →
          ∫ ω, err ω ∂(Measure.pi fun _ => μ) ≤ (1 + ε) * tail (fun i j => k (x i) (x j)) q) ∧
        (tail (fun i j => k (x i) (x j)) q = 0 →
          ∫ ω, err ω ∂(Measure.pi fun _ => μ) ≤ (1 - 1 / (r : ℝ)) ^ size * ∑ j, k (x j) (x j)) := by
  obtain ⟨err, h1, h2, h3⟩ := integral_error (size := size) x unique hD hk hs
  refine ⟨err, h1, h2, fun r q hr hq => ⟨fun ε hε hb hT => ?_, fun hb => ?_⟩⟩
  · rw [h3]
    exact meanAfter_bound x unique hD hk hs hq hr hε hb hT
  · rw [h3]
    exact meanAfter_geometric x unique hD hk hs hq hr hb le_rfl

end

/-! ### The contract can be met: inverse distribution function of a uniform number -/

section
variable {n : ℕ} [NeZero n]

/-- Sum of the weights before `j`. -/
def cumulative (v : Fin n → ℝ) (j : ℕ) : ℝ := ∑ l : Fin n, if (l : ℕ) < j then v l else 0

theorem cumulative_succ (v : Fin n → ℝ) (j : Fin n) : cumulative v (j + 1) = cumulative v j + v j := by
  unfold cumulative
  have e : v j = ∑ l, if l = j then v l else 0 := by simp
  rw [e, ← Finset.sum_add_distrib]
  refine Finset.sum_congr rfl fun l _ => ?_
  by_cases h : l = j
  · subst h; simp
  · have : (l : ℕ) ≠ j := fun hc => h (Fin.ext hc)
    by_cases h2 : (l : ℕ) < j
    · simp [h, h2, show (l : ℕ) < j + 1 by omega]
    · simp [h, h2, show ¬ (l : ℕ) < j + 1 by omega]

theorem cumulative_mono {v : Fin n → ℝ} (hv : ∀ j, 0 ≤ v j) : Monotone (cumulative v) := fun a b h =>
  Finset.sum_le_sum fun l _ => by
    by_cases h2 : (l : ℕ) < a
    · simp [h2, show (l : ℕ) < b by omega]
    · rw [if_neg h2]; split_ifs; exacts [hv l, le_rfl]

/-- The number `u` falls to element `j`. -/
def Hit (u : ℝ) (p : Fin n → Ext ℝ) (j : Fin n) : Prop :=
  ∃ v : Fin n → ℝ, (∀ j, p j = Ext.fin (v j)) ∧ (∀ j, 0 ≤ v j) ∧ cumulative v j < u * ∑ l, v l ∧ u * ∑ l, v l ≤ cumulative v (j + 1)

theorem Hit.iff {u : ℝ} {p : Fin n → Ext ℝ} {v : Fin n → ℝ} (hp : ∀ j, p j = Ext.fin (v j)) (hv : ∀ j, 0 ≤ v j) (j : Fin n) :
    Hit u p j ↔ cumulative v j < u * ∑ l, v l ∧ u * ∑ l, v l ≤ cumulative v (j + 1) := by
  constructor
  · rintro ⟨v', h1, -, h3⟩
    have : v' = v := by funext l; have := h1 l; rw [hp l] at this; simpa using this.symm
    subst this; exact h3
  · exact fun h => ⟨v, hp, hv, h⟩

theorem Hit.unique {u : ℝ} {p : Fin n → Ext ℝ} {i j : Fin n} (hi : Hit u p i) (hj : Hit u p j) : i = j := by
  obtain ⟨v, hp, hv, h1, h2⟩ := hi
  obtain ⟨h3, h4⟩ := (Hit.iff hp hv j).1 hj
  rcases lt_trichotomy (i : ℕ) j with h | h | h
  · have := cumulative_mono hv (show (i : ℕ) + 1 ≤ j by omega); linarith
  · exact Fin.ext h
  · have := cumulative_mono hv (show (j : ℕ) + 1 ≤ i by omega); linarith

open Classical in
/-- A sampler. -/
noncomputable def inverseDraw (u : ℝ) (p : Fin n → Ext ℝ) : ℤ := if h : ∃ j, Hit u p j then (h.choose : Fin n) else nanargmax p

theorem inverseDraw_hit {u : ℝ} {p : Fin n → Ext ℝ} {j : Fin n} (h : Hit u p j) : inverseDraw u p = j := by
  have h' : ∃ j, Hit u p j := ⟨j, h⟩
  rw [inverseDraw, dif_pos h', h'.choose_spec.unique h]

theorem measurableSet_hit (p : Fin n → Ext ℝ) (j : Fin n) : MeasurableSet {u | Hit u p j} := by
  by_cases h : ∃ v : Fin n → ℝ, (∀ j, p j = Ext.fin (v j)) ∧ ∀ j, 0 ≤ v j
  · obtain ⟨v, hp, hv⟩ := h
    simp only [Hit.iff hp hv]
    exact (measurableSet_lt measurable_const (measurable_id.mul_const _)).inter (measurableSet_le (measurable_id.mul_const _) measurable_const)
  · have : {u : ℝ | Hit u p j} = ∅ := by
      ext u
      simp only [Set.mem_ofPred_eq, Set.mem_empty_iff_false, iff_false]
      rintro ⟨v, h1, h2, -⟩
      exact h ⟨v, h1, h2⟩
    rw [this]; exact MeasurableSet.empty

theorem hit_iff_div {u : ℝ} {v : Fin n → ℝ} (hv : ∀ j, 0 ≤ v j) (hS : 0 < ∑ l, v l) (j : Fin n) :
    Hit u (fun j => Ext.fin (v j)) j ↔ u ∈ Set.Ioc (cumulative v j / ∑ l, v l) (cumulative v (j + 1) / ∑ l, v l) := by
  rw [Hit.iff (v := v) (fun _ => rfl) hv, Set.mem_Ioc, div_lt_iff₀ hS, le_div_iff₀ hS]

theorem exists_hit {u : ℝ} {v : Fin n → ℝ} (hv : ∀ j, 0 ≤ v j) (hS : 0 < ∑ l, v l) (hu : u ∈ Set.Ioc (0 : ℝ) 1) :
    ∃ j, Hit u (fun j => Ext.fin (v j)) j := by
  classical
  have htop : cumulative v n = ∑ l, v l := Finset.sum_congr rfl fun l _ => by rw [if_pos l.2]
  have hex : ∃ m, u * ∑ l, v l ≤ cumulative v m := ⟨n, by rw [htop]; nlinarith [hu.2]⟩
  have h0 : Nat.find hex ≠ 0 := by
    intro h
    have h1 := Nat.find_spec hex
    rw [h] at h1
    have h2 : cumulative v 0 = 0 := by simp [cumulative]
    rw [h2] at h1
    have := mul_pos hu.1 hS
    linarith
  have hle : Nat.find hex ≤ n := Nat.find_min' hex (by rw [htop]; nlinarith [hu.2])
  refine ⟨⟨Nat.find hex - 1, by omega⟩, (Hit.iff (v := v) (fun _ => rfl) hv _).2 ⟨?_, ?_⟩⟩
  · exact not_le.1 (Nat.find_min hex (show Nat.find hex - 1 < Nat.find hex by omega))
  · have : Nat.find hex - 1 + 1 = Nat.find hex := by omega
    simp only [this]
    exact Nat.find_spec hex

/-- The sampler has the law assumed of `jr.choice`. -/
theorem pivotLaw_inverse : PivotLaw (n := n) (volume.restrict (Set.Ioc (0 : ℝ) 1)) inverseDraw := by
  refine ⟨fun u i p h1 h2 => ?_, fun p j => ?_, fun v hv hS j => ?_⟩
  · by_cases h : ∃ j, Hit u p j
    · obtain ⟨j, hj⟩ := h
      refine ⟨j, ?_⟩
      obtain ⟨v, hp, hv, h3, h4⟩ := id hj
      refine ⟨v j, inverseDraw_hit hj, ?_, hp j⟩
      rw [cumulative_succ] at h4
      linarith
    · have := pivotContract_greedy i p h1 h2
      simp only [inverseDraw, dif_neg h]
      exact this
  · have : {u | inverseDraw u p = (j : ℤ)} = {u | Hit u p j} ∪ ((⋃ l, {u | Hit u p l})ᶜ ∩ {_u : ℝ | nanargmax p = (j : ℤ)}) := by
      ext u
      simp only [Set.mem_ofPred_eq, Set.mem_union, Set.mem_inter_iff, Set.mem_compl_iff, Set.mem_iUnion]
      by_cases h : ∃ l, Hit u p l
      · obtain ⟨l, hl⟩ := h
        rw [inverseDraw_hit hl]
        constructor
        · intro h2
          left
          have : l = j := Fin.ext (by exact_mod_cast h2)
          rwa [← this]
        · rintro (h2 | ⟨h2, -⟩)
          · rw [hl.unique h2]
          · exact absurd ⟨l, hl⟩ h2
      · have h2 : ¬ Hit u p j := fun h3 => h ⟨j, h3⟩
        simp [inverseDraw, h2, h]
    rw [this]
    exact (measurableSet_hit p j).union ((MeasurableSet.iUnion fun l => measurableSet_hit p l).compl.inter (MeasurableSet.const _))
  · have hC0 : ∀ m, 0 ≤ cumulative v m := fun m => Finset.sum_nonneg fun l _ => by split_ifs; exacts [hv l, le_rfl]
    have hC1 : ∀ m, cumulative v m ≤ ∑ l, v l := fun m => Finset.sum_le_sum fun l _ => by split_ifs; exacts [le_rfl, hv l]
    have hset : {u | inverseDraw u (fun j => Ext.fin (v j)) = (j : ℤ)} ∩ Set.Ioc (0 : ℝ) 1 =
        Set.Ioc (cumulative v j / ∑ l, v l) (cumulative v (j + 1) / ∑ l, v l) := by
      ext u
      rw [← hit_iff_div hv hS]
      constructor
      · rintro ⟨h, hu⟩
        obtain ⟨l, hl⟩ := exists_hit hv hS hu
        have h : inverseDraw u (fun j => Ext.fin (v j)) = (j : ℤ) := h
        rw [inverseDraw_hit hl] at h
        have : l = j := Fin.ext (by exact_mod_cast h)
        rwa [← this]
      · intro h
        refine ⟨inverseDraw_hit h, ?_⟩
        obtain ⟨h1, h2⟩ := (hit_iff_div hv hS j).1 h
        exact ⟨lt_of_le_of_lt (div_nonneg (hC0 _) hS.le) h1, h2.trans ((div_le_one hS).2 (hC1 _))⟩
    rw [Measure.real, Measure.restrict_apply' measurableSet_Ioc, hset, Real.volume_Ioc, cumulative_succ, ← sub_div, add_sub_cancel_left,
      ENNReal.toReal_ofReal (div_nonneg (hv j) hS.le)]

instance : IsProbabilityMeasure (volume.restrict (Set.Ioc (0 : ℝ) 1)) := ⟨by simp⟩

/-- The linear kernel on three points of the line, of rank one: two pivots leave no error on average (here even one). -/
example : ∃ err : (Fin 2 → ℝ) → ℝ,
    (∀ ω, ∃ c state A, rpcReduce Real.sqrt (fun a b : ℝ => a * b) ![1, 2, 2] true (drawOf inverseDraw ω) 2 none = .ok (c, state) ∧
        IsNystrom (fun i j => (![1, 2, 2] : Fin 3 → ℝ) i * (![1, 2, 2] : Fin 3 → ℝ) j) {j | ∃ t, c.data t = (j : ℤ)} A ∧
        err ω = ∑ j, ((![1, 2, 2] : Fin 3 → ℝ) j * (![1, 2, 2] : Fin 3 → ℝ) j - A j j)) ∧
      ∫ ω, err ω ∂(Measure.pi fun _ => volume.restrict (Set.Ioc (0 : ℝ) 1)) ≤ 0 := by
  have hk : IsPSD (fun a b : ℝ => a * b) := by
    refine ⟨fun a b => mul_comm a b, fun n x c => ?_⟩
    have : ∑ i, ∑ j, c i * c j * (x i * x j) = (∑ i, c i * x i) * ∑ j, c j * x j := by
      rw [Finset.sum_mul_sum]
      exact Finset.sum_congr rfl fun i _ => Finset.sum_congr rfl fun j _ => by ring
    rw [this]
    exact mul_self_nonneg _
  obtain ⟨err, -, h2, h3⟩ := C53_expected_error (size := 2) ![1, 2, 2] true (pivotLaw_inverse (n := 3)) hk (by norm_num)
  refine ⟨err, h2, ?_⟩
  have hq : Spec.Orthonormal (fun (_ : Fin 1) => (![1 / 3, 2 / 3, 2 / 3] : Fin 3 → ℝ)) := by
    intro a b
    rw [Subsingleton.elim a b]
    simp [Fin.sum_univ_three]
    norm_num
  have := (h3 1 (fun _ => ![1 / 3, 2 / 3, 2 / 3]) one_pos hq).2 (by
    simp [tail, captured, form, trace, Fin.sum_univ_three]
    norm_num)
  simpa using this

/-- The identity Gram matrix on four points, two directions: the size condition can be met with a positive remainder. -/
example : ∃ (q : Fin 1 → Fin 4 → ℝ), Spec.Orthonormal q ∧ 0 < tail (fun i j : Fin 4 => if i = j then (1 : ℝ) else 0) q ∧
    ((1 : ℕ) : ℝ) / 1 + ((1 : ℕ) : ℝ) * Real.log (captured (fun i j : Fin 4 => if i = j then (1 : ℝ) else 0) q /
      (1 * tail (fun i j : Fin 4 => if i = j then (1 : ℝ) else 0) q)) ≤ ((2 : ℕ) : ℝ) := by
  refine ⟨fun _ => ![1, 0, 0, 0], fun a b => ?_, ?_, ?_⟩
  · rw [Subsingleton.elim a b]
    simp [Fin.sum_univ_four]
  · simp [tail, captured, form, trace, Fin.sum_univ_four]
  · have h : Real.log (1 / 3) ≤ 0 := Real.log_nonpos (by norm_num) (by norm_num)
    have e1 : captured (fun i j : Fin 4 => if i = j then (1 : ℝ) else 0) (fun _ : Fin 1 => ![1, 0, 0, 0]) = 1 := by
      simp [captured, form, Fin.sum_univ_four]
    have e2 : tail (fun i j : Fin 4 => if i = j then (1 : ℝ) else 0) (fun _ : Fin 1 => ![1, 0, 0, 0]) = 3 := by
      simp only [tail, e1]
      simp [trace, Fin.sum_univ_four]
      norm_num
    rw [e1, e2]
    norm_num at h ⊢
    linarith

end

end Coreax
