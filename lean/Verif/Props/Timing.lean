import Verif.Model.Timing
import Verif.Props.Performance
import Verif.Lemmas.RPC

/-!
# C46: timing of functions and what the comparison makes of it
-/

set_option linter.unusedSectionVars false

namespace Coreax

/-! ### When the comparison aborts -/

section abort
variable {K : Type} [Field K] [LinearOrder K] [IsStrictOrderedRing K]

/-- A test with a negative mean. -/
def Spec.NegativeMean (t : TestData K) : Prop := ∃ w, Ext.lt (t.mean w) (Ext.fin 0) = true

theorem compareMeans_error_iff (ttest : TTest K) (threshold : K) (m1 s1 : Ext K) (n1 : ℕ) (m2 s2 : Ext K) (n2 : ℕ) :
    (∃ e, compareMeans ttest threshold m1 s1 n1 m2 s2 n2 = .error e) ↔ Ext.lt m1 (Ext.fin 0) = true ∨ Ext.lt m2 (Ext.fin 0) = true := by
  unfold compareMeans relativeChange
  by_cases h : (Ext.lt m2 (Ext.fin 0) || Ext.lt m1 (Ext.fin 0)) = true
  · rw [if_pos h]
    simp only [bind, Except.bind, Except.error.injEq, exists_eq', true_iff]
    rw [Bool.or_eq_true] at h
    exact h.symm
  · have h' : ¬ (Ext.lt m1 (Ext.fin 0) = true ∨ Ext.lt m2 (Ext.fin 0) = true) := by
      rw [Bool.or_eq_true] at h
      exact fun x => h x.symm
    rw [if_neg h, iff_false_right h']
    rintro ⟨e, he⟩
    by_cases h0 : m2 = Ext.fin 0
    · rw [if_pos h0] at he
      simp only [bind, Except.bind] at he
      split_ifs at he
    · rw [if_neg h0] at he
      simp only [bind, Except.bind] at he
      split_ifs at he

theorem compareMeans_error_kind (ttest : TTest K) (threshold : K) (m1 s1 : Ext K) (n1 : ℕ) (m2 s2 : Ext K) (n2 : ℕ) (e : Err)
    (h : compareMeans ttest threshold m1 s1 n1 m2 s2 n2 = .error e) : e = .valueError := by
  have h' := (compareMeans_error_iff ttest threshold m1 s1 n1 m2 s2 n2).1 ⟨e, h⟩
  have hb : (Ext.lt m2 (Ext.fin 0) || Ext.lt m1 (Ext.fin 0)) = true := by rw [Bool.or_eq_true]; exact h'.symm
  unfold compareMeans relativeChange at h
  rw [if_pos hb] at h
  simp only [bind, Except.bind, Except.error.injEq] at h
  exact h.symm

theorem compareTest_error_iff (ttest : TTest K) (threshold : K) (cur hist : TestData K) :
    compareTest ttest threshold cur hist = .error .valueError ↔ Spec.NegativeMean cur ∨ Spec.NegativeMean hist := by
  have hc := compareMeans_error_iff ttest threshold cur.compilationMean cur.compilationStd cur.numRuns hist.compilationMean hist.compilationStd hist.numRuns
  have he := compareMeans_error_iff ttest threshold cur.executionMean cur.executionStd cur.numRuns hist.executionMean hist.executionStd hist.numRuns
  have hneg : (Spec.NegativeMean cur ∨ Spec.NegativeMean hist) ↔
      ((Ext.lt cur.compilationMean (Ext.fin 0) = true ∨ Ext.lt hist.compilationMean (Ext.fin 0) = true) ∨
       (Ext.lt cur.executionMean (Ext.fin 0) = true ∨ Ext.lt hist.executionMean (Ext.fin 0) = true)) := by
    unfold Spec.NegativeMean
    constructor
    · rintro (⟨w, h⟩ | ⟨w, h⟩) <;> cases w <;> simp only [TestData.mean] at h <;> tauto
    · rintro ((h | h) | (h | h))
      exacts [Or.inl ⟨.compilation, h⟩, Or.inr ⟨.compilation, h⟩, Or.inl ⟨.execution, h⟩, Or.inr ⟨.execution, h⟩]
  rw [hneg, ← hc, ← he]
  unfold compareTest
  cases h1 : compareMeans ttest threshold cur.compilationMean cur.compilationStd cur.numRuns hist.compilationMean hist.compilationStd hist.numRuns with
  | error e =>
    have := compareMeans_error_kind _ _ _ _ _ _ _ _ _ h1
    subst this
    simp [bind, Except.bind]
  | ok c =>
    cases h2 : compareMeans ttest threshold cur.executionMean cur.executionStd cur.numRuns hist.executionMean hist.executionStd hist.numRuns with
    | error e =>
      have := compareMeans_error_kind _ _ _ _ _ _ _ _ _ h2
      subst this
      simp [bind, Except.bind]
    | ok d => simp [bind, Except.bind]

theorem compareTest_ok (ttest : TTest K) (threshold : K) (cur hist : TestData K) (h : ¬ (Spec.NegativeMean cur ∨ Spec.NegativeMean hist)) :
    ∃ m, compareTest ttest threshold cur hist = .ok m := by
  rw [← compareTest_error_iff ttest threshold] at h
  cases hx : compareTest ttest threshold cur hist with
  | ok m => exact ⟨m, rfl⟩
  | error e =>
    exfalso
    apply h
    rw [hx]
    unfold compareTest at hx
    cases h1 : compareMeans ttest threshold cur.compilationMean cur.compilationStd cur.numRuns hist.compilationMean hist.compilationStd hist.numRuns with
    | error e' =>
      have := compareMeans_error_kind _ _ _ _ _ _ _ _ _ h1
      subst this
      rw [h1] at hx
      simp only [bind, Except.bind] at hx
      rw [← hx]
    | ok c =>
      cases h2 : compareMeans ttest threshold cur.executionMean cur.executionStd cur.numRuns hist.executionMean hist.executionStd hist.numRuns with
      | error e' =>
        have := compareMeans_error_kind _ _ _ _ _ _ _ _ _ h2
        subst this
        rw [h1, h2] at hx
        simp only [bind, Except.bind] at hx
        rw [← hx]
      | ok d => rw [h1, h2] at hx; simp [bind, Except.bind] at hx

variable {N : Type} [DecidableEq N]

theorem compareLoop_error_iff (ttest : TTest K) (threshold : K) (l : List (N × TestData K × TestData K)) :
    (compareLoop ttest threshold l = .error .valueError ↔ ∃ x ∈ l, Spec.NegativeMean x.2.1 ∨ Spec.NegativeMean x.2.2) ∧
    ((¬ ∃ x ∈ l, Spec.NegativeMean x.2.1 ∨ Spec.NegativeMean x.2.2) → ∃ r, compareLoop ttest threshold l = .ok r) := by
  induction l with
  | nil => simp [compareLoop]
  | cons x l ih =>
    obtain ⟨name, cur, hist⟩ := x
    by_cases h : Spec.NegativeMean cur ∨ Spec.NegativeMean hist
    · have := (compareTest_error_iff ttest threshold cur hist).2 h
      simp only [compareLoop, this, bind, Except.bind, List.mem_cons, exists_eq_or_imp, h, true_or, not_true_eq_false, false_implies, and_self]
    · obtain ⟨m, hm⟩ := compareTest_ok ttest threshold cur hist h
      simp only [List.mem_cons, exists_eq_or_imp, h, false_or]
      by_cases h2 : ∃ x ∈ l, Spec.NegativeMean x.2.1 ∨ Spec.NegativeMean x.2.2
      · refine ⟨iff_of_true ?_ h2, fun hn => absurd h2 hn⟩
        simp only [compareLoop, hm, ih.1.2 h2, bind, Except.bind]
      · obtain ⟨r, hr⟩ := ih.2 h2
        refine ⟨iff_of_false ?_ h2, fun _ => ?_⟩
        · simp [compareLoop, hm, hr, bind, Except.bind]
        · simp [compareLoop, hm, hr, bind, Except.bind]

/-- C46: the comparison as a whole raises ValueError, and reports nothing, exactly if some test with data on both sides has a negative mean on either side; one such test is enough,
whatever the others show. -/
theorem C46_abort_iff (ttest : TTest K) (current historic : List (N × TestData K)) (hh : (historic.map Prod.fst).Nodup) :
    (significantDifferences ttest current historic = .error .valueError ↔
      ∃ name cur hist, (name, cur) ∈ current ∧ (name, hist) ∈ historic ∧ (Spec.NegativeMean cur ∨ Spec.NegativeMean hist)) ∧
    ((¬ ∃ name cur hist, (name, cur) ∈ current ∧ (name, hist) ∈ historic ∧ (Spec.NegativeMean cur ∨ Spec.NegativeMean hist)) →
      ∃ r, significantDifferences ttest current historic = .ok r) := by
  have hdef : significantDifferences ttest current historic = if matchedTests current historic = [] then .ok []
      else compareLoop ttest (5 / 100 / ((matchedTests current historic).length * 2)) (matchedTests current historic) := rfl
  have hiff : (∃ x ∈ matchedTests current historic, Spec.NegativeMean x.2.1 ∨ Spec.NegativeMean x.2.2) ↔
      ∃ name cur hist, (name, cur) ∈ current ∧ (name, hist) ∈ historic ∧ (Spec.NegativeMean cur ∨ Spec.NegativeMean hist) := by
    constructor
    · rintro ⟨⟨a, b, c⟩, hx, h⟩
      have := (mem_matchedTests hh a b c).1 hx
      exact ⟨a, b, c, this.1, this.2, h⟩
    · rintro ⟨a, b, c, h1, h2, h⟩
      exact ⟨(a, b, c), (mem_matchedTests hh a b c).2 ⟨h1, h2⟩, h⟩
  rw [hdef, ← hiff]
  by_cases hm : matchedTests current historic = []
  · rw [if_pos hm, hm]; simp
  · rw [if_neg hm]
    exact compareLoop_error_iff _ _ _

end abort

/-! ### The statistics -/

namespace Spec

/-- The arithmetic mean. -/
noncomputable def mean {r : ℕ} (x : Fin r → ℝ) : ℝ := (∑ j, x j) / r

/-- The corrected sample variance, the estimate that Welch's test is built on. -/
noncomputable def sampleVar {r : ℕ} (x : Fin r → ℝ) : ℝ := (∑ j, (x j - mean x) ^ 2) / (r - 1)

end Spec

open Ext in
theorem meanF_fin {r : ℕ} [NeZero r] (x : Fin r → ℝ) : meanF (fun j => Ext.fin (x j)) = Ext.fin (Spec.mean x) := by
  have : (r : ℝ) ≠ 0 := by exact_mod_cast NeZero.ne r
  rw [meanF, sum_fin, fin_div_fin this, Spec.mean]

open Ext in
theorem stdF_fin {r : ℕ} [NeZero r] (x : Fin r → ℝ) :
    stdF (fun j => Ext.fin (x j)) = Ext.fin (Real.sqrt ((∑ j, (x j - Spec.mean x) ^ 2) / r)) := by
  have h : (r : ℝ) ≠ 0 := by exact_mod_cast NeZero.ne r
  have h0 : 0 ≤ (∑ j, (x j - Spec.mean x) * (x j - Spec.mean x)) / (r : ℝ) :=
    div_nonneg (Finset.sum_nonneg fun j _ => mul_self_nonneg _) (Nat.cast_nonneg r)
  rw [stdF, meanF_fin]
  simp only [Ext.fin_sub_eq, fin_mul_fin, sum_fin, fin_div_fin h, Ext.sqrt, if_neg (not_lt.2 h0)]
  simp only [pow_two]

/-- C46: what is stored for a function measured in `r ≥ 1` runs with non-zero normalisation values `c`, `e` (or one each without normalisation): the means of first run less second run
and of the second run, in those units; and deviations whose square is `(r - 1)/r` of the corrected sample variance. -/
theorem C46_statistics {r : ℕ} [NeZero r] (runs : Fin r → ℝ × ℝ) (norm : Option (Ext ℝ × Ext ℝ)) (c e : ℝ) (hc : c ≠ 0) (he : e ≠ 0)
    (hn : norm = some (Ext.fin c, Ext.fin e) ∨ (norm = none ∧ c = 1 ∧ e = 1)) :
    ∃ mc me sc se : ℝ, runStats norm runs = ⟨Ext.fin mc, Ext.fin me, Ext.fin sc, Ext.fin se, r⟩ ∧
      mc * c = Spec.mean (fun j => (runs j).1) - Spec.mean (fun j => (runs j).2) ∧ me * e = Spec.mean (fun j => (runs j).2) ∧
      0 ≤ sc ∧ 0 ≤ se ∧ r * (sc * c) ^ 2 = (r - 1) * Spec.sampleVar (fun j => (runs j).1 - (runs j).2) ∧
      r * (se * e) ^ 2 = (r - 1) * Spec.sampleVar (fun j => (runs j).2) := by
  have hr : (r : ℝ) ≠ 0 := by exact_mod_cast NeZero.ne r
  have h1 : compilationTimes norm runs = fun j => Ext.fin (((runs j).1 - (runs j).2) / c) := by
    funext j
    rcases hn with rfl | ⟨rfl, rfl, rfl⟩
    · simp only [compilationTimes, Ext.fin_div_fin hc]
    · simp [compilationTimes]
  have h2 : executionTimes norm runs = fun j => Ext.fin ((runs j).2 / e) := by
    funext j
    rcases hn with rfl | ⟨rfl, rfl, rfl⟩
    · simp only [executionTimes, Ext.fin_div_fin he]
    · simp [executionTimes]
  have hscale : ∀ (x : Fin r → ℝ) (a : ℝ), a ≠ 0 → Spec.mean (fun j => x j / a) * a = Spec.mean x := by
    intro x a ha
    simp only [Spec.mean, ← Finset.sum_div]
    field_simp
  have hvar : ∀ (x : Fin r → ℝ) (a : ℝ), a ≠ 0 →
      r * (Real.sqrt ((∑ j, (x j / a - Spec.mean (fun j => x j / a)) ^ 2) / r) * a) ^ 2 = (r - 1) * Spec.sampleVar x := by
    intro x a ha
    have hm : Spec.mean (fun j => x j / a) = Spec.mean x / a := by rw [eq_div_iff ha, hscale x a ha]
    have hs : ∑ j, (x j / a - Spec.mean (fun j => x j / a)) ^ 2 = (∑ j, (x j - Spec.mean x) ^ 2) / a ^ 2 := by
      rw [hm, Finset.sum_div]
      refine Finset.sum_congr rfl fun j _ => ?_
      rw [← sub_div, div_pow]
    have hs0 : 0 ≤ ∑ j, (x j - Spec.mean x) ^ 2 := Finset.sum_nonneg fun j _ => sq_nonneg _
    rw [mul_pow, Real.sq_sqrt (by rw [hs]; positivity), hs]
    have e1 : (r : ℝ) * ((∑ j, (x j - Spec.mean x) ^ 2) / a ^ 2 / r * a ^ 2) = ∑ j, (x j - Spec.mean x) ^ 2 := by
      field_simp
    rw [e1]
    unfold Spec.sampleVar
    by_cases hr1 : (r : ℝ) - 1 = 0
    · rw [hr1, zero_mul]
      have hr1' : r = 1 := by
        have : (r : ℝ) = 1 := by linarith
        exact_mod_cast this
      subst hr1'
      simp [Spec.mean]
    · field_simp
  refine ⟨Spec.mean (fun j => ((runs j).1 - (runs j).2) / c), Spec.mean (fun j => (runs j).2 / e),
    Real.sqrt ((∑ j, (((runs j).1 - (runs j).2) / c - Spec.mean (fun j => ((runs j).1 - (runs j).2) / c)) ^ 2) / r),
    Real.sqrt ((∑ j, ((runs j).2 / e - Spec.mean (fun j => (runs j).2 / e)) ^ 2) / r), ?_, ?_, ?_, Real.sqrt_nonneg _, Real.sqrt_nonneg _, ?_, ?_⟩
  · simp only [runStats, h1, h2, meanF_fin, stdF_fin]
  · rw [hscale (fun j => (runs j).1 - (runs j).2) c hc]
    simp only [Spec.mean, Finset.sum_sub_distrib, sub_div]
  · exact hscale (fun j => (runs j).2) e he
  · exact hvar (fun j => (runs j).1 - (runs j).2) c hc
  · exact hvar (fun j => (runs j).2) e he

/-- C46: without normalisation the two means add up to the mean of the first runs. -/
theorem C46_total {r : ℕ} [NeZero r] (runs : Fin r → ℝ × ℝ) :
    (runStats none runs).compilationMean + (runStats none runs).executionMean = Ext.fin (Spec.mean fun j => (runs j).1) := by
  obtain ⟨mc, me, sc, se, h, h1, h2, -⟩ := C46_statistics runs none 1 1 one_ne_zero one_ne_zero (Or.inr ⟨rfl, rfl, rfl⟩)
  rw [h]
  show Ext.fin (mc + me) = _
  congr 1
  linarith

/-- C46: the stored compilation time is negative exactly if the second runs took longer in total than the first ones (for a normaliser for which they did not). -/
theorem C46_negative_iff {r : ℕ} [NeZero r] (runs : Fin r → ℝ × ℝ) (c e : ℝ) (hc : 0 < c) (he : 0 < e) :
    Ext.lt (runStats (some (Ext.fin c, Ext.fin e)) runs).compilationMean (Ext.fin 0) = true ↔ ∑ j, (runs j).1 < ∑ j, (runs j).2 := by
  obtain ⟨mc, me, sc, se, h, h1, -⟩ := C46_statistics runs _ c e hc.ne' he.ne' (Or.inl rfl)
  have hr : 0 < (r : ℝ) := by exact_mod_cast Nat.pos_of_ne_zero (NeZero.ne r)
  rw [h]
  simp only [Ext.lt, decide_eq_true_eq]
  rw [Spec.mean, Spec.mean, ← sub_div] at h1
  constructor
  · intro hlt
    have : (∑ j, (runs j).1 - ∑ j, (runs j).2) / r < 0 := by rw [← h1]; exact mul_neg_of_neg_of_pos hlt hc
    rw [div_lt_iff₀ hr, zero_mul] at this
    linarith
  · intro hlt
    by_contra hge
    have : 0 ≤ (∑ j, (runs j).1 - ∑ j, (runs j).2) / r := by rw [← h1]; exact mul_nonneg (not_lt.1 hge) hc.le
    rw [le_div_iff₀ hr, zero_mul] at this
    linarith

/-! ### Names -/

theorem dictSet_keys {N V : Type} [DecidableEq N] (d : List (N × V)) (name : N) (v : V) :
    (dictSet d name v).map Prod.fst = if name ∈ d.map Prod.fst then d.map Prod.fst else d.map Prod.fst ++ [name] := by
  unfold dictSet
  split_ifs with h
  · rw [List.map_map]
    refine List.map_congr_left fun p _ => ?_
    simp only [Function.comp]
    split_ifs with hp
    · exact hp.symm
    · rfl
  · simp

theorem dictSet_mem {N V : Type} [DecidableEq N] (d : List (N × V)) (name : N) (v : V) (a : N) (b : V) :
    (a, b) ∈ dictSet d name v ↔ (a = name ∧ b = v) ∨ (a ≠ name ∧ (a, b) ∈ d) := by
  unfold dictSet
  split_ifs with h
  · simp only [List.mem_map, Prod.exists]
    constructor
    · rintro ⟨x, y, hxy, he⟩
      split_ifs at he with hx
      · cases he; exact Or.inl ⟨rfl, rfl⟩
      · cases he; exact Or.inr ⟨hx, hxy⟩
    · rintro (⟨rfl, rfl⟩ | ⟨hne, hab⟩)
      · obtain ⟨⟨x, y⟩, hm, hx⟩ := List.mem_map.1 h
        simp only at hx
        exact ⟨x, y, hm, by rw [if_pos hx]⟩
      · exact ⟨a, b, hab, by rw [if_neg hne]⟩
  · rw [List.mem_append, List.mem_singleton, Prod.mk.injEq]
    constructor
    · rintro (hab | hab)
      · refine Or.inr ⟨?_, hab⟩
        rintro rfl
        exact h (List.mem_map.2 ⟨_, hab, rfl⟩)
      · exact Or.inl hab
    · rintro (hab | hab)
      · exact Or.inr hab
      · exact Or.inl hab.2

/-- C46: the dictionary of results: one entry for each different name, in order of first appearance, with the value of the last function of that name; the others are lost. -/
theorem C46_dict {N V : Type} [DecidableEq N] (l : List (N × V)) :
    ((dictOf l).map Prod.fst).Nodup ∧
    ∀ a b, (a, b) ∈ dictOf l ↔ ∃ before after, l = before ++ (a, b) :: after ∧ a ∉ after.map Prod.fst := by
  induction l using List.reverseRecOn with
  | nil => simp [dictOf]
  | append_singleton l p ih =>
    obtain ⟨ih1, ih2⟩ := ih
    have hstep : dictOf (l ++ [p]) = dictSet (dictOf l) p.1 p.2 := by simp [dictOf]
    rw [hstep]
    constructor
    · rw [dictSet_keys]
      split_ifs with h
      · exact ih1
      · rw [List.nodup_append]
        exact ⟨ih1, by simp, fun a ha b hb => by
          rw [List.mem_singleton] at hb
          rintro rfl
          exact h (hb ▸ ha)⟩
    · intro a b
      rw [dictSet_mem, ih2]
      constructor
      · rintro (⟨rfl, rfl⟩ | ⟨hne, before, after, rfl, hna⟩)
        · exact ⟨l, [], by simp, by simp⟩
        · refine ⟨before, after ++ [p], by simp, ?_⟩
          simp only [List.map_append, List.map_cons, List.map_nil, List.mem_append, List.mem_singleton, not_or]
          exact ⟨hna, hne⟩
      · rintro ⟨before, after, he, hna⟩
        rcases List.eq_nil_or_concat after with rfl | ⟨after', q, rfl⟩
        · left
          have := List.append_inj' he rfl
          simp only [List.cons.injEq, and_true] at this
          rw [this.2]
          exact ⟨rfl, rfl⟩
        · right
          rw [List.concat_eq_append] at he hna
          rw [← List.cons_append, ← List.append_assoc] at he
          have hh := List.append_inj' he rfl
          simp only [List.cons.injEq, and_true] at hh
          rw [hh.2]
          simp only [List.map_append, List.map_cons, List.map_nil, List.mem_append, List.mem_singleton, not_or] at hna
          exact ⟨hna.2, before, after', hh.1, hna.1⟩

/-- C46: default names count from one and are different from each other; functions given different names, none of the default form, keep all their results. -/
theorem C46_names {V : Type} (fmt : ℕ → String) (hf : Function.Injective fmt) (setups : List (Option String × V))
    (hd : ∀ i j (hi : i < setups.length) (hj : j < setups.length), i ≠ j → setups[i].1 ≠ none → setups[i].1 ≠ setups[j].1)
    (hform : ∀ p ∈ setups, ∀ s, p.1 = some s → ∀ k, s ≠ "function_" ++ fmt k) :
    timingsDict fmt setups = setups.zipIdx.map (fun p => (p.1.1.getD ("function_" ++ fmt (p.2 + 1)), p.1.2)) := by
  have key : ∀ (l : List (String × V)), (l.map Prod.fst).Nodup → dictOf l = l := by
    intro l
    induction l using List.reverseRecOn with
    | nil => intro _; rfl
    | append_singleton l p ih =>
      intro hnd
      rw [List.map_append, List.nodup_append] at hnd
      have hstep : dictOf (l ++ [p]) = dictSet (dictOf l) p.1 p.2 := by simp [dictOf]
      rw [hstep, ih hnd.1, dictSet, if_neg]
      intro hmem
      exact hnd.2.2 _ hmem p.1 (by simp) rfl
  unfold timingsDict
  rw [key]
  · rfl
  · rw [List.nodup_iff_injective_get]
    intro i j hij
    have hli : (i : ℕ) < setups.length := by simpa using i.2
    have hlj : (j : ℕ) < setups.length := by simpa using j.2
    rw [List.get_eq_getElem, List.get_eq_getElem, List.getElem_map, List.getElem_map, List.getElem_map, List.getElem_map, List.getElem_zipIdx, List.getElem_zipIdx] at hij
    simp only [Nat.zero_add, setupName] at hij
    by_contra hne
    have hne' : (i : ℕ) ≠ j := fun h => hne (Fin.ext h)
    cases hi : setups[(i : ℕ)].1 with
    | none =>
      cases hj : setups[(j : ℕ)].1 with
      | none =>
        rw [hi, hj] at hij
        simp only [Option.getD_none] at hij
        have h1 : fmt (i + 1) = fmt (j + 1) := by
          have := congrArg String.toList hij
          rw [String.toList_append, String.toList_append] at this
          exact String.ext (List.append_cancel_left this)
        have := hf h1
        omega
      | some s =>
        rw [hi, hj] at hij
        simp only [Option.getD_none, Option.getD_some] at hij
        exact hform _ (List.getElem_mem hlj) s hj _ hij.symm
    | some s =>
      cases hj : setups[(j : ℕ)].1 with
      | none =>
        rw [hi, hj] at hij
        simp only [Option.getD_none, Option.getD_some] at hij
        exact hform _ (List.getElem_mem hli) s hi _ hij
      | some s' =>
        rw [hi, hj] at hij
        simp only [Option.getD_some] at hij
        subst hij
        exact hd i j hli hlj hne' (by rw [hi]; simp) (by rw [hi, hj])

/-! ### The whole pipeline -/

/-- C46: one function whose second runs were slower in total than its first ones (a cached compilation, a busy machine) makes the comparison with any earlier data for it abort:
nothing is reported for any test. -/
theorem C46_slow_second_runs_abort {r : ℕ} [NeZero r] {N : Type} [DecidableEq N] (ttest : TTest ℝ) (normaliser : Fin r → ℝ × ℝ)
    (hn1 : ∑ j, (normaliser j).2 < ∑ j, (normaliser j).1) (hn2 : 0 < ∑ j, (normaliser j).2)
    (setups : List (N × (Fin r → ℝ × ℝ))) (hnames : (setups.map Prod.fst).Nodup) (historic : List (N × TestData ℝ)) (hh : (historic.map Prod.fst).Nodup)
    (name : N) (runs : Fin r → ℝ × ℝ) (hmem : (name, runs) ∈ setups) (hist : TestData ℝ) (hhist : (name, hist) ∈ historic)
    (hslow : ∑ j, (runs j).1 < ∑ j, (runs j).2) :
    significantDifferences ttest (performanceRun normaliser setups) historic = .error .valueError := by
  have hr : 0 < (r : ℝ) := by exact_mod_cast Nat.pos_of_ne_zero (NeZero.ne r)
  obtain ⟨mc, me, sc, se, h, h1, h2, -⟩ := C46_statistics normaliser none 1 1 one_ne_zero one_ne_zero (Or.inr ⟨rfl, rfl, rfl⟩)
  have hmc : 0 < mc := by
    rw [mul_one, Spec.mean, Spec.mean, ← sub_div] at h1
    rw [h1]
    exact div_pos (by linarith) hr
  have hme : 0 < me := by
    rw [mul_one, Spec.mean] at h2
    rw [h2]
    exact div_pos hn2 hr
  have hperf : performanceRun normaliser setups = dictOf (setups.map fun p => (p.1, runStats (some (Ext.fin mc, Ext.fin me)) p.2)) := by
    unfold performanceRun
    rw [h]
  rw [(C46_abort_iff ttest _ historic hh).1]
  refine ⟨name, runStats (some (Ext.fin mc, Ext.fin me)) runs, hist, ?_, hhist, Or.inl ⟨.compilation, (C46_negative_iff runs mc me hmc hme).2 hslow⟩⟩
  rw [hperf, (C46_dict _).2]
  obtain ⟨before, after, rfl⟩ := List.append_of_mem hmem
  refine ⟨_, _, by rw [List.map_append, List.map_cons], ?_⟩
  rw [List.map_map]
  rw [List.map_append, List.map_cons, List.nodup_append] at hnames
  exact (List.nodup_cons.1 hnames.2.1).1

/-- C46: the stored deviations are not those that Welch's test expects. For two functions measured in `r ≥ 2` runs each the statistic computed from the stored values is too large in size by
the factor `√(r/(r-1))`, the same for all data (and positive if the first mean is the larger one); so p-values are too small, and the level of five per cent is not kept. -/
theorem C46_welch_inflated {r : ℕ} (hr : 2 ≤ r) (x y : Fin r → ℝ) (sx sy : ℝ) (hx : r * sx ^ 2 = (r - 1) * Spec.sampleVar x) (hy : r * sy ^ 2 = (r - 1) * Spec.sampleVar y) :
    welchT (Spec.mean x) sx r (Spec.mean y) sy r
      = Real.sqrt (r / (r - 1)) * welchT (Spec.mean x) (Real.sqrt (Spec.sampleVar x)) r (Spec.mean y) (Real.sqrt (Spec.sampleVar y)) r ∧
    1 < Real.sqrt ((r : ℝ) / (r - 1)) ∧
    (Spec.mean y < Spec.mean x → sx ≠ 0 → 0 < welchT (Spec.mean x) sx r (Spec.mean y) sy r) := by
  have h2 : (2 : ℝ) ≤ r := by exact_mod_cast hr
  have hr0 : (0 : ℝ) < r := by linarith
  have hr1 : (0 : ℝ) < r - 1 := by linarith
  have hvx : 0 ≤ Spec.sampleVar x := div_nonneg (Finset.sum_nonneg fun j _ => sq_nonneg _) hr1.le
  have hvy : 0 ≤ Spec.sampleVar y := div_nonneg (Finset.sum_nonneg fun j _ => sq_nonneg _) hr1.le
  have ex : sx ^ 2 = (r - 1) / r * Spec.sampleVar x := by field_simp; linarith
  have ey : sy ^ 2 = (r - 1) / r * Spec.sampleVar y := by field_simp; linarith
  refine ⟨?_, ?_, fun hlt hsx => ?_⟩
  · unfold welchT
    rw [Real.sq_sqrt hvx, Real.sq_sqrt hvy, ex, ey,
      show (r - 1) / r * Spec.sampleVar x / r + (r - 1) / r * Spec.sampleVar y / r = ((r - 1) / r) * (Spec.sampleVar x / r + Spec.sampleVar y / r) by ring,
      Real.sqrt_mul (by positivity), show (r : ℝ) / (r - 1) = (((r : ℝ) - 1) / r)⁻¹ by rw [inv_div], Real.sqrt_inv]
    rw [div_mul_eq_div_div_swap, div_eq_inv_mul]
  · rw [Real.lt_sqrt (by norm_num), lt_div_iff₀ hr1]
    linarith
  · have : 0 < sx ^ 2 := by positivity
    exact div_pos (sub_pos.2 hlt) (Real.sqrt_pos.2 (by positivity))

/-! ### Cases -/

/-- The hypotheses of the two theorems above can be met. -/
example : significantDifferences (fun _ _ _ _ _ _ => Ext.fin 1)
    (performanceRun (fun _ : Fin 2 => ((3 : ℝ), 1)) [("herding", fun j => ![(5, 1), (4, 1)] j), ("stein", fun j => ![(1, 2), (2, 2)] j)])
    [("stein", ⟨Ext.fin 1, Ext.fin 1, Ext.fin 1, Ext.fin 1, 10⟩)] = .error .valueError :=
  C46_slow_second_runs_abort _ _ (by simp) (by simp) _ (by simp) _ (by simp) "stein" (fun j => ![(1, 2), (2, 2)] j) (by simp) ⟨Ext.fin 1, Ext.fin 1, Ext.fin 1, Ext.fin 1, 10⟩ (by simp)
    (by simp [Fin.sum_univ_two])

example : ∃ sx sy : ℝ, (10 : ℕ) * sx ^ 2 = ((10 : ℕ) - 1) * Spec.sampleVar (fun j : Fin 10 => (j : ℝ)) ∧
    (10 : ℕ) * sy ^ 2 = ((10 : ℕ) - 1) * Spec.sampleVar (fun j : Fin 10 => 2 * (j : ℝ)) := by
  have hc : (0 : ℝ) ≤ ((10 : ℕ) - 1) / (10 : ℕ) := by norm_num
  have h0 : ∀ x : Fin 10 → ℝ, 0 ≤ Spec.sampleVar x := fun x =>
    div_nonneg (Finset.sum_nonneg fun j _ => sq_nonneg _) (by norm_num)
  refine ⟨Real.sqrt (((10 : ℕ) - 1) / (10 : ℕ) * Spec.sampleVar (fun j : Fin 10 => (j : ℝ))),
    Real.sqrt (((10 : ℕ) - 1) / (10 : ℕ) * Spec.sampleVar (fun j : Fin 10 => 2 * (j : ℝ))), ?_, ?_⟩ <;>
  · rw [Real.sq_sqrt (mul_nonneg hc (h0 _))]
    push_cast
    ring

example : timingsDict (fun k => if k = 1 then "1" else if k = 2 then "2" else "3") [(none, 5), (some "function_1", 6), (none, 7)] = [("function_1", 6), ("function_3", 7)] := by
  decide +kernel

open Spec in
example := C46_abort_iff (fun _ _ _ _ _ _ => Ext.fin (1 : ℝ)) [("herding", ⟨Ext.fin (-1), Ext.fin 1, Ext.fin 1, Ext.fin 1, 10⟩)] [("herding", ⟨Ext.fin 1, Ext.fin 1, Ext.fin 1, Ext.fin 1, 10⟩), ("stein", ⟨Ext.fin 1, Ext.fin 1, Ext.fin 1, Ext.fin 1, 10⟩)] (by simp)

example := C46_statistics (r := 2) ![(5, 1), (4, 1)] (some (Ext.fin 2, Ext.fin 3)) 2 3 (by norm_num) (by norm_num) (.inl rfl)

example := C46_negative_iff (r := 2) ![(1, 2), (2, 2)] 2 3 (by norm_num) (by norm_num)

/-- Names of the form `function_1x…x` stand for an injective formatting of the numbers. -/
example := C46_names (fun k => String.ofList (List.replicate k 'x')) (fun a b h => by simpa using congrArg String.length h) [(none, 5), (some "herding", 6), (none, 7)]
  (by
    intro i j hi hj hij h
    simp at hi hj
    interval_cases i <;> interval_cases j <;> simp_all)
  (by
    intro p hp s hs k h
    simp at hp
    rcases hp with rfl | rfl | rfl <;> simp at hs
    subst hs
    have := congrArg (fun s => s.toList.head?) h
    simp at this)

/-! ### What `jit_test` measures -/

/-- C46: run `j` of `r` runs on a machine that has done `c` compilations and `e` executions before: the first number is the time of one compilation and one execution, the second that of the next
execution alone; each run compiles anew; the time between runs does not enter. -/
theorem C46_jit (compile exec gap : ℕ → ℝ) (r : ℕ) (m : Machine) (j : Fin r) :
    (jitRuns compile exec gap r m).1 j
      = (compile (m.compiled + j) + exec (m.executed + 2 * j), exec (m.executed + 2 * j + 1)) ∧
    (jitRuns compile exec gap r m).2.compiled = m.compiled + r ∧ (jitRuns compile exec gap r m).2.executed = m.executed + 2 * r := by
  have h := forLoop_inv (P := fun t (s : (Fin r → ℝ × ℝ) × Machine) =>
      (∀ i : Fin r, (i : ℕ) < t → s.1 i = (compile (m.compiled + i) + exec (m.executed + 2 * i), exec (m.executed + 2 * i + 1))) ∧
      s.2.compiled = m.compiled + t ∧ s.2.executed = m.executed + 2 * t) r
    (fun j s =>
      let t := jitTest compile exec s.2
      (Function.update s.1 j t.1, { t.2 with clock := t.2.clock + gap j })) (fun _ => (0, 0), m)
    ⟨fun i hi => absurd hi (Nat.not_lt_zero _), rfl, rfl⟩ (by
      rintro i s ⟨h1, h2, h3⟩
      refine ⟨fun k hk => ?_, ?_, ?_⟩
      · show Function.update s.1 i _ k = _
        by_cases hki : k = i
        · subst hki
          rw [Function.update_self]
          simp only [jitTest, jitCall, Bool.false_eq_true, if_false, if_true, h2, h3]
          refine Prod.ext ?_ ?_ <;> simp only <;> ring
        · rw [Function.update_of_ne hki]
          have : (k : ℕ) ≠ i := fun h => hki (Fin.ext h)
          exact h1 k (by omega)
      · show s.2.compiled + 1 = _
        rw [h2, Nat.add_assoc]
      · show s.2.executed + 1 + 1 = _
        rw [h3]
        ring)
  exact ⟨h.1 j j.2, h.2.1, h.2.2⟩

/-- C46: the mean stored as compilation time is the mean time of the compilations plus the mean of the executions that came first less the mean of those that came second.  So it is the time of the
compilations exactly if the first executions took as long in total as the second ones, and it is negative, although compiling takes time, exactly if the second ones took longer by more than all
compilations together. -/
theorem C46_jit_bias (compile exec gap : ℕ → ℝ) (r : ℕ) [NeZero r] (m : Machine) :
    (runStats none (jitRuns compile exec gap r m).1).compilationMean
      = Ext.fin (Spec.mean (fun j : Fin r => compile (m.compiled + j)) +
          (Spec.mean (fun j : Fin r => exec (m.executed + 2 * j)) - Spec.mean (fun j : Fin r => exec (m.executed + 2 * j + 1)))) ∧
    (runStats none (jitRuns compile exec gap r m).1).executionMean = Ext.fin (Spec.mean fun j : Fin r => exec (m.executed + 2 * j + 1)) ∧
    ((runStats none (jitRuns compile exec gap r m).1).compilationMean = Ext.fin (Spec.mean fun j : Fin r => compile (m.compiled + j)) ↔
      ∑ j : Fin r, exec (m.executed + 2 * j) = ∑ j : Fin r, exec (m.executed + 2 * j + 1)) ∧
    (Ext.lt (runStats none (jitRuns compile exec gap r m).1).compilationMean (Ext.fin 0) = true ↔
      ∑ j : Fin r, compile (m.compiled + j) < ∑ j : Fin r, (exec (m.executed + 2 * j + 1) - exec (m.executed + 2 * j))) := by
  have hr : (0 : ℝ) < r := by exact_mod_cast Nat.pos_of_ne_zero (NeZero.ne r)
  obtain ⟨mc, me, sc, se, h, h1, h2, -⟩ := C46_statistics (jitRuns compile exec gap r m).1 none 1 1 one_ne_zero one_ne_zero (Or.inr ⟨rfl, rfl, rfl⟩)
  have hj : ∀ j : Fin r, (jitRuns compile exec gap r m).1 j = _ := fun j => (C46_jit compile exec gap r m j).1
  simp only [hj, mul_one] at h1 h2
  rw [h]
  have hmc : mc = (∑ j : Fin r, compile (m.compiled + j) + (∑ j : Fin r, exec (m.executed + 2 * j) - ∑ j : Fin r, exec (m.executed + 2 * j + 1))) / r := by
    rw [h1]
    simp only [Spec.mean, Finset.sum_add_distrib]
    ring
  refine ⟨?_, by rw [h2], ?_, ?_⟩
  · rw [hmc]
    simp only [Spec.mean]
    congr 1
    ring
  · simp only [Ext.fin.injEq, Spec.mean]
    rw [hmc, div_left_inj' hr.ne']
    constructor <;> intro h' <;> linarith
  · simp only [Ext.lt, decide_eq_true_eq]
    rw [hmc, Finset.sum_sub_distrib, div_lt_iff₀ hr, zero_mul]
    constructor <;> intro h' <;> linarith

/-- Two runs on a machine that gets slower: the stored compilation time is wrong by one. -/
example : (runStats none (jitRuns (fun _ => 3) (fun e => e) (fun _ => 1) 2 ⟨0, 0, 0⟩).1).compilationMean = Ext.fin 2 ∧
    (runStats none (jitRuns (fun _ => 3) (fun e => e) (fun _ => 1) 2 ⟨0, 0, 0⟩).1).compilationMean ≠ Ext.fin (Spec.mean fun _ : Fin 2 => (3 : ℝ)) := by
  refine ⟨?_, ?_⟩
  · rw [(C46_jit_bias _ _ _ 2 _).1]
    simp [Spec.mean, Fin.sum_univ_two]
    norm_num
  · intro h
    have := ((C46_jit_bias (fun _ => 3) (fun e => e) (fun _ => 1) 2 ⟨0, 0, 0⟩).2.2.1).1 h
    simp [Fin.sum_univ_two] at this
    norm_num at this

/-- A first execution that is slower by a hundredth. -/
example := (C46_jit (fun _ => 3) (fun e => if e % 2 = 0 then 1.01 else 1) (fun _ => 0) 5 ⟨10, 2, 4⟩ 3).1

end Coreax
