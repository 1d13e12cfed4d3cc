import Verif.Props.Scripts
import Mathlib.MeasureTheory.Measure.Typeclasses.Probability
import Mathlib.Data.Real.Basic
import Mathlib.MeasureTheory.OuterMeasure.Basic

/-!
# C38: comparison of performance
-/

set_option linter.unusedSectionVars false

namespace Coreax

section performance
variable {K : Type} [Field K] [LinearOrder K] [IsStrictOrderedRing K]

/-- C38: the relative change of non-negative numbers: it is the ratio less one; infinite from zero, also from zero to zero; a negative number raises ValueError. -/
theorem C38_relative_change (before after : K) :
    (0 < before → 0 ≤ after → relativeChange (Ext.fin before) (Ext.fin after) = .ok (Ext.fin (after / before - 1))) ∧
    (before = 0 → 0 ≤ after → relativeChange (Ext.fin before) (Ext.fin after) = .ok Ext.pinf) ∧
    (relativeChange (Ext.fin before) (Ext.fin after) = .error .valueError ↔ before < 0 ∨ after < 0) := by
  refine ⟨?_, ?_, ?_⟩
  · intro hb ha
    simp only [relativeChange, Ext.lt, not_lt.2 hb.le, not_lt.2 ha, decide_false, Bool.or_self, Bool.false_eq_true, if_false, Ext.fin.injEq, hb.ne',
      Ext.fin_sub_eq, Ext.fin_div_of_ne _ _ hb.ne']
    congr 2
    field_simp
  · rintro rfl ha
    simp [relativeChange, Ext.lt, not_lt.2 ha]
  · unfold relativeChange
    by_cases h : before < 0 ∨ after < 0
    · have : (Ext.lt (Ext.fin before) (Ext.fin 0) || Ext.lt (Ext.fin after) (Ext.fin 0)) = true := by
        simpa [Ext.lt] using h
      simp [this, h]
    · have : (Ext.lt (Ext.fin before) (Ext.fin 0) || Ext.lt (Ext.fin after) (Ext.fin 0)) = false := by
        rw [← Bool.not_eq_true]; simpa [Ext.lt] using h
      simp only [this, Bool.false_eq_true, if_false, h, iff_false]
      split_ifs <;> simp

/-- The contract of the two-sample test used: for equal means the p-value is not below one (it is one, or NaN without spread). -/
def TTestContract (ttest : TTest K) : Prop := ∀ m s n s' n', ¬ Ext.lt (ttest m s n m s' n') (Ext.fin 1) = true

/-- The direction of a reported difference, without reference to the code: at least ten per cent more, or less, than before. -/
def Spec.Changed (dir : Direction) (current historic : K) : Prop :=
  match dir with
  | .increase => historic + historic / 10 < current
  | .decrease => current < historic - historic / 10

theorem Ext.lt_trans_fin {x : Ext K} {a b : K} (h : Ext.lt x (Ext.fin a) = true) (hab : a ≤ b) : Ext.lt x (Ext.fin b) = true := by
  cases x <;> simp [Ext.lt] at *
  exact h.trans_le hab

/-- C38: one comparison of finite times: it raises ValueError exactly for a negative mean; otherwise a difference is reported exactly if the p-value is below the threshold and
the mean changed by more than ten per cent, and the direction reported is that of the change, never both. -/
theorem C38_compare_means {ttest : TTest K} (htest : TTestContract ttest) (threshold : K) (hthr : threshold ≤ 1) (m1 m2 : K) (s1 s2 : Ext K) (n1 n2 : ℕ) :
    (compareMeans ttest threshold (Ext.fin m1) s1 n1 (Ext.fin m2) s2 n2 = .error .valueError ↔ m1 < 0 ∨ m2 < 0) ∧
    (0 ≤ m1 → 0 ≤ m2 → ∃ r, compareMeans ttest threshold (Ext.fin m1) s1 n1 (Ext.fin m2) s2 n2 = .ok r ∧
      ∀ dir, r = some dir ↔ Ext.lt (ttest (Ext.fin m1) s1 n1 (Ext.fin m2) s2 n2) (Ext.fin threshold) = true ∧ Spec.Changed dir m1 m2) := by
  obtain ⟨hc1, hc2, hc3⟩ := C38_relative_change m2 m1
  have ht : m1 = m2 → Ext.lt (ttest (Ext.fin m1) s1 n1 (Ext.fin m2) s2 n2) (Ext.fin threshold) = false := by
    rintro rfl
    rw [← Bool.not_eq_true]
    exact fun h => htest _ _ _ _ _ (Ext.lt_trans_fin h hthr)
  unfold compareMeans
  simp only
  generalize Ext.lt (ttest (Ext.fin m1) s1 n1 (Ext.fin m2) s2 n2) (Ext.fin threshold) = q at *
  by_cases hneg : m2 < 0 ∨ m1 < 0
  · rw [hc3.2 hneg]
    simp only [bind, Except.bind, true_iff]
    refine ⟨hneg.symm, fun h1 h2 => ?_⟩
    rcases hneg with h | h
    · exact absurd h2 (not_le.2 h)
    · exact absurd h1 (not_le.2 h)
  · push Not at hneg
    obtain ⟨h2, h1⟩ := hneg
    have hnn : ¬ (m1 < 0 ∨ m2 < 0) := by push Not; exact ⟨h1, h2⟩
    rcases eq_or_lt_of_le h2 with h0 | h0
    · rw [hc2 h0.symm h1]
      simp only [bind, Except.bind, hnn, iff_false]
      have e : (Ext.lt (Ext.fin (1 / 10 : K)) (Ext.pinf : Ext K).absF) = true := rfl
      rw [e, Bool.and_true]
      constructor
      · split_ifs <;> simp
      · intro _ _
        refine ⟨_, (apply_ite Except.ok _ _ _).symm, fun dir => ?_⟩
        subst h0
        cases hp : q
        · simp
        · have hne : m1 ≠ 0 := fun h => by rw [ht h] at hp; simp at hp
          have hpos : 0 < m1 := lt_of_le_of_ne h1 (Ne.symm hne)
          simp only [if_true, Ext.lt, hpos, decide_true, Option.some.injEq, true_and]
          cases dir
          · simp [Spec.Changed, hpos]
          · simp [Spec.Changed, hpos.le]
    · rw [hc1 h0 h1]
      simp only [bind, Except.bind, hnn, iff_false]
      constructor
      · split_ifs <;> simp
      · intro _ _
        refine ⟨_, (apply_ite Except.ok _ _ _).symm, fun dir => ?_⟩
        have habs : (1 / 10 : K) < |m1 / m2 - 1| ↔ Spec.Changed .increase m1 m2 ∨ Spec.Changed .decrease m1 m2 := by
          rw [lt_abs]
          have hi : 1 / 10 < m1 / m2 - 1 ↔ m2 + m2 / 10 < m1 := by
            rw [lt_sub_iff_add_lt, lt_div_iff₀ h0]; constructor <;> intro h <;> linarith
          have hd : 1 / 10 < -(m1 / m2 - 1) ↔ m1 < m2 - m2 / 10 := by
            rw [show -(m1 / m2 - 1) = 1 - m1 / m2 by ring, lt_sub_comm, div_lt_iff₀ h0]; constructor <;> intro h <;> linarith
          rw [hi, hd]; rfl
        have hlt' : Ext.lt (Ext.fin (1 / 10 : K)) (Ext.fin (m1 / m2 - 1)).absF = decide (1 / 10 < |m1 / m2 - 1|) := rfl
        have hdir : Ext.lt (Ext.fin m2) (Ext.fin m1) = decide (m2 < m1) := rfl
        rw [hlt', hdir]
        cases hp : q
        · simp
        · simp only [true_and, Bool.true_and, decide_eq_true_eq]
          by_cases hlt : m2 < m1
          · have hnd : ¬ Spec.Changed .decrease m1 m2 := by simp only [Spec.Changed, not_lt]; linarith
            by_cases hi : Spec.Changed .increase m1 m2
            · rw [if_pos (habs.2 (Or.inl hi)), if_pos hlt]
              cases dir <;> simp [hi, hnd]
            · rw [if_neg (fun h => (habs.1 h).elim hi hnd)]
              cases dir <;> simp [hi, hnd]
          · have hni : ¬ Spec.Changed .increase m1 m2 := by simp only [Spec.Changed, not_lt]; linarith [not_lt.1 hlt]
            by_cases hi : Spec.Changed .decrease m1 m2
            · rw [if_pos (habs.2 (Or.inr hi)), if_neg hlt]
              cases dir <;> simp [hi, hni]
            · rw [if_neg (fun h => (habs.1 h).elim hni hi)]
              cases dir <;> simp [hi, hni]

/-- C38, the limit of the contract: for two means of zero the relative change counts as infinite, so that a test that gives a small p-value for equal means would have
a decrease reported. -/
theorem C38_zero_to_zero (ttest : TTest K) (threshold : K) (s1 s2 : Ext K) (n1 n2 : ℕ)
    (h : Ext.lt (ttest (Ext.fin 0) s1 n1 (Ext.fin 0) s2 n2) (Ext.fin threshold) = true) :
    compareMeans ttest threshold (Ext.fin 0) s1 n1 (Ext.fin 0) s2 n2 = .ok (some .decrease) := by
  have h0 : relativeChange (Ext.fin (0 : K)) (Ext.fin 0) = .ok Ext.pinf := by simp [relativeChange, Ext.lt]
  have h1 : Ext.lt (Ext.fin (1 / 10 : K)) (Ext.pinf : Ext K).absF = true := rfl
  have h2 : Ext.lt (Ext.fin (0 : K)) (Ext.fin 0) = false := by simp [Ext.lt]
  simp only [compareMeans, h0, bind, Except.bind, h, h1, h2, Bool.and_self, if_true, Bool.false_eq_true, if_false]

/-! ### All tests -/

/-- The times of a test, by kind. -/
def TestData.mean (t : TestData K) : Timed → Ext K
  | .compilation => t.compilationMean
  | .execution => t.executionMean
def TestData.std (t : TestData K) : Timed → Ext K
  | .compilation => t.compilationStd
  | .execution => t.executionStd

/-- All means are finite and non-negative. -/
def Spec.GoodData (t : TestData K) : Prop := ∀ w, ∃ m : K, 0 ≤ m ∧ t.mean w = Ext.fin m

/-- A difference that is to be reported, without reference to the code. -/
def Spec.Reportable (ttest : TTest K) (threshold : K) (cur hist : TestData K) (w : Timed) (dir : Direction) : Prop :=
  Ext.lt (ttest (cur.mean w) (cur.std w) cur.numRuns (hist.mean w) (hist.std w) hist.numRuns) (Ext.fin threshold) = true ∧
  ∃ m1 m2 : K, cur.mean w = Ext.fin m1 ∧ hist.mean w = Ext.fin m2 ∧ Spec.Changed dir m1 m2

theorem compareTest_spec {ttest : TTest K} (htest : TTestContract ttest) (threshold : K) (hthr : threshold ≤ 1) (cur hist : TestData K)
    (hc : Spec.GoodData cur) (hh : Spec.GoodData hist) :
    ∃ msgs, compareTest ttest threshold cur hist = .ok msgs ∧ (msgs.map Prod.fst).Nodup ∧
      ∀ w dir, (w, dir) ∈ msgs ↔ Spec.Reportable ttest threshold cur hist w dir := by
  obtain ⟨c1, hc1, ec1⟩ := hc .compilation
  obtain ⟨c2, hc2, ec2⟩ := hc .execution
  obtain ⟨h1, hh1, eh1⟩ := hh .compilation
  obtain ⟨h2, hh2, eh2⟩ := hh .execution
  obtain ⟨r1, e1, s1⟩ := (C38_compare_means htest threshold hthr c1 h1 cur.compilationStd hist.compilationStd cur.numRuns hist.numRuns).2 hc1 hh1
  obtain ⟨r2, e2, s2⟩ := (C38_compare_means htest threshold hthr c2 h2 cur.executionStd hist.executionStd cur.numRuns hist.numRuns).2 hc2 hh2
  simp only [TestData.mean] at ec1 ec2 eh1 eh2
  refine ⟨(r1.map (Prod.mk .compilation)).toList ++ (r2.map (Prod.mk .execution)).toList, ?_, ?_, ?_⟩
  · simp [compareTest, ec1, ec2, eh1, eh2, e1, e2, bind, Except.bind]
  · cases r1 <;> cases r2 <;> simp
  · intro w dir
    cases w
    · simp only [Spec.Reportable, TestData.mean, TestData.std, ec1, eh1, Ext.fin.injEq, exists_and_left, exists_eq_left', ← s1]
      cases r1 <;> cases r2 <;> simp [eq_comm]
    · simp only [Spec.Reportable, TestData.mean, TestData.std, ec2, eh2, Ext.fin.injEq, exists_and_left, exists_eq_left', ← s2]
      cases r1 <;> cases r2 <;> simp [eq_comm]

variable {N : Type} [DecidableEq N]

theorem compareLoop_spec {ttest : TTest K} (htest : TTestContract ttest) (threshold : K) (hthr : threshold ≤ 1)
    (l : List (N × TestData K × TestData K)) (hl : ∀ x ∈ l, Spec.GoodData x.2.1 ∧ Spec.GoodData x.2.2) (hnd : (l.map Prod.fst).Nodup) :
    ∃ r, compareLoop ttest threshold l = .ok r ∧ (r.map Prod.fst).Sublist (l.map Prod.fst) ∧
      (∀ name msgs, (name, msgs) ∈ r → msgs ≠ [] ∧ (msgs.map Prod.fst).Nodup ∧ ∃ cur hist, (name, cur, hist) ∈ l ∧
        ∀ w dir, (w, dir) ∈ msgs ↔ Spec.Reportable ttest threshold cur hist w dir) ∧
      (∀ name cur hist w dir, (name, cur, hist) ∈ l → Spec.Reportable ttest threshold cur hist w dir → ∃ msgs, (name, msgs) ∈ r ∧ (w, dir) ∈ msgs) := by
  induction l with
  | nil => exact ⟨[], rfl, by simp, by simp, by simp⟩
  | cons x l ih =>
    obtain ⟨name, cur, hist⟩ := x
    rw [List.map_cons, List.nodup_cons] at hnd
    obtain ⟨r, er, hsub, h1, h2⟩ := ih (fun y hy => hl y (List.mem_cons_of_mem _ hy)) hnd.2
    obtain ⟨msgs, em, hmn, hm⟩ := compareTest_spec htest threshold hthr cur hist (hl _ List.mem_cons_self).1 (hl _ List.mem_cons_self).2
    refine ⟨if msgs = [] then r else (name, msgs) :: r, ?_, ?_, ?_, ?_⟩
    · simp [compareLoop, em, er, bind, Except.bind]
    · split_ifs
      · exact hsub.cons _
      · exact hsub.cons_cons _
    · intro n' m' hmem
      split_ifs at hmem with h
      · obtain ⟨a, b, c, d, e, f⟩ := h1 n' m' hmem
        exact ⟨a, b, c, d, List.mem_cons_of_mem _ e, f⟩
      · rcases List.mem_cons.1 hmem with he | hmem
        · cases he
          exact ⟨h, hmn, cur, hist, List.mem_cons_self, hm⟩
        · obtain ⟨a, b, c, d, e, f⟩ := h1 n' m' hmem
          exact ⟨a, b, c, d, List.mem_cons_of_mem _ e, f⟩
    · intro n' c' h' w dir hmem hrep
      rcases List.mem_cons.1 hmem with he | hmem
      · cases he
        have hin := (hm w dir).2 hrep
        have hne : msgs ≠ [] := List.ne_nil_of_mem hin
        exact ⟨msgs, by rw [if_neg hne]; exact List.mem_cons_self, hin⟩
      · obtain ⟨m, hm1, hm2⟩ := h2 n' c' h' w dir hmem hrep
        exact ⟨m, by split_ifs; exacts [hm1, List.mem_cons_of_mem _ hm1], hm2⟩

/-- The number of tests with data on both sides. -/
def Spec.matchedCount (current historic : List (N × TestData K)) : ℕ :=
  (current.filter fun c => c.1 ∈ historic.map Prod.fst).length

/-- The matched tests of the code. -/
def matchedTests (current historic : List (N × TestData K)) : List (N × TestData K × TestData K) :=
  current.filterMap fun c => (historic.find? fun h => h.1 = c.1).map fun h => (c.1, c.2, h.2)

theorem mem_matchedTests {current historic : List (N × TestData K)} (hh : (historic.map Prod.fst).Nodup) (name : N) (cur hist : TestData K) :
    (name, cur, hist) ∈ matchedTests current historic ↔ (name, cur) ∈ current ∧ (name, hist) ∈ historic := by
  unfold matchedTests
  simp only [List.mem_filterMap, Option.map_eq_some_iff, Prod.mk.injEq, Prod.exists]
  constructor
  · rintro ⟨a, b, hab, c, d, hf, rfl, rfl, rfl⟩
    have h1 := List.find?_some hf
    have h2 := List.mem_of_find?_eq_some hf
    simp only [decide_eq_true_eq] at h1
    subst h1
    exact ⟨hab, h2⟩
  · rintro ⟨h1, h2⟩
    refine ⟨name, cur, h1, name, hist, ?_, rfl, rfl, rfl⟩
    clear h1
    induction historic with
    | nil => simp at h2
    | cons x xs ih =>
      rw [List.map_cons, List.nodup_cons] at hh
      rw [List.find?_cons]
      rcases List.mem_cons.1 h2 with rfl | h2
      · simp
      · have : x.1 ≠ name := by
          rintro rfl
          exact hh.1 (List.mem_map.2 ⟨_, h2, rfl⟩)
        simp only [this, decide_false, Bool.false_eq_true, if_false]
        exact ih hh.2 h2

theorem matchedTests_length (current historic : List (N × TestData K)) : (matchedTests current historic).length = Spec.matchedCount current historic := by
  unfold matchedTests Spec.matchedCount
  rw [List.length_filterMap_eq_countP, ← List.countP_eq_length_filter]
  refine List.countP_congr fun c _ => ?_
  simp only [Option.isSome_map, List.find?_isSome, decide_eq_true_eq, List.mem_map]

theorem matchedTests_names (current historic : List (N × TestData K)) :
    ((matchedTests current historic).map Prod.fst).Sublist (current.map Prod.fst) := by
  induction current with
  | nil => simp [matchedTests]
  | cons c cs ih =>
    unfold matchedTests at ih ⊢
    rw [List.filterMap_cons]
    cases historic.find? fun h => h.1 = c.1 with
    | none => exact ih.cons _
    | some h => exact ih.cons_cons _

/-- C38: the report of the performance script. For tests with finite, non-negative mean times (and distinct names), exactly the tests with data on both sides are listed for which some time
changed by more than ten per cent with a p-value below five per cent divided by the number of comparisons (two for each test on both sides); each once, with exactly one message for each such
time, stating the direction of the change. -/
theorem C38_performance_report {ttest : TTest K} (htest : TTestContract ttest) (current historic : List (N × TestData K))
    (hc : (current.map Prod.fst).Nodup) (hh : (historic.map Prod.fst).Nodup)
    (hgc : ∀ x ∈ current, Spec.GoodData x.2) (hgh : ∀ x ∈ historic, Spec.GoodData x.2) :
    ∃ r, significantDifferences ttest current historic = .ok r ∧ (r.map Prod.fst).Nodup ∧
      (∀ name msgs, (name, msgs) ∈ r → msgs ≠ [] ∧ (msgs.map Prod.fst).Nodup ∧ ∃ cur hist, (name, cur) ∈ current ∧ (name, hist) ∈ historic ∧
        ∀ w dir, (w, dir) ∈ msgs ↔ Spec.Reportable ttest (1 / 20 / (2 * Spec.matchedCount current historic : ℕ)) cur hist w dir) ∧
      (∀ name cur hist w dir, (name, cur) ∈ current → (name, hist) ∈ historic →
        Spec.Reportable ttest (1 / 20 / (2 * Spec.matchedCount current historic : ℕ)) cur hist w dir → ∃ msgs, (name, msgs) ∈ r ∧ (w, dir) ∈ msgs) := by
  have hdef : significantDifferences ttest current historic = if matchedTests current historic = [] then .ok []
      else compareLoop ttest (5 / 100 / ((matchedTests current historic).length * 2)) (matchedTests current historic) := rfl
  have hthr : (5 / 100 / (((matchedTests current historic).length : K) * 2)) = 1 / 20 / ((2 * Spec.matchedCount current historic : ℕ) : K) := by
    rw [matchedTests_length]; push_cast; rw [mul_comm (2 : K)]; norm_num
  by_cases hm : matchedTests current historic = []
  · refine ⟨[], by rw [hdef, if_pos hm], by simp, by simp, ?_⟩
    intro name cur hist w dir h1 h2
    have := (mem_matchedTests hh name cur hist).2 ⟨h1, h2⟩
    rw [hm] at this; simp at this
  · have hle : 1 / 20 / ((2 * Spec.matchedCount current historic : ℕ) : K) ≤ 1 := by
      have h0 : 1 ≤ Spec.matchedCount current historic := by
        rw [← matchedTests_length]; exact List.length_pos_iff.2 hm
      have h1 : (1 : K) ≤ ((2 * Spec.matchedCount current historic : ℕ) : K) := by
        exact_mod_cast (by omega : 1 ≤ 2 * Spec.matchedCount current historic)
      rw [div_le_one (by linarith)]
      linarith [show (1 : K) / 20 ≤ 1 by norm_num]
    have hsub := matchedTests_names current historic
    obtain ⟨r, er, hs, h1, h2⟩ := compareLoop_spec htest (1 / 20 / ((2 * Spec.matchedCount current historic : ℕ) : K)) hle (matchedTests current historic)
      (fun x hx => by
        obtain ⟨a, b, c⟩ := x
        have := (mem_matchedTests hh a b c).1 hx
        exact ⟨hgc _ this.1, hgh _ this.2⟩) (hsub.nodup hc)
    refine ⟨r, by rw [hdef, if_neg hm, hthr, er], hs.nodup (hsub.nodup hc), ?_, ?_⟩
    · intro name msgs hmem
      obtain ⟨a, b, c, d, e, f⟩ := h1 name msgs hmem
      obtain ⟨e1, e2⟩ := (mem_matchedTests hh name c d).1 e
      exact ⟨a, b, c, d, e1, e2, f⟩
    · intro name cur hist w dir hcur hhist hrep
      exact h2 name cur hist w dir ((mem_matchedTests hh name cur hist).2 ⟨hcur, hhist⟩) hrep

end performance

/-! ### Family-wise error -/

section familywise
open MeasureTheory
variable {N : Type} [DecidableEq N] {Ω : Type*}

/-- C38: if nothing has changed, in the sense that each p-value falls below a level with probability at most that level, then the probability of reporting anything at all is at most five
per cent, whatever the dependence between the tests and however many tests there are: the correction for the number of comparisons is sufficient. -/
theorem C38_familywise {M : Type*} [FunLike M (Set Ω) ENNReal] [OuterMeasureClass M Ω] (μ : M) {ttest : TTest ℝ} (htest : TTestContract ttest)
    (names names' : List N) (hn : names.Nodup) (hn' : names'.Nodup) (cur hist : Ω → N → TestData ℝ)
    (hgood : ∀ ω n, Spec.GoodData (cur ω n) ∧ Spec.GoodData (hist ω n))
    (hnull : ∀ n ∈ names, n ∈ names' → ∀ (w : Timed) (α : ℝ), 0 < α →
      μ {ω | Ext.lt (ttest ((cur ω n).mean w) ((cur ω n).std w) (cur ω n).numRuns ((hist ω n).mean w) ((hist ω n).std w) (hist ω n).numRuns) (Ext.fin α) = true}
        ≤ ENNReal.ofReal α) :
    μ {ω | significantDifferences ttest (names.map fun n => (n, cur ω n)) (names'.map fun n => (n, hist ω n)) ≠ .ok []} ≤ ENNReal.ofReal (1 / 20) := by
  set m : ℕ := (names.filter fun n => n ∈ names').length with hm
  have hmap : ∀ (l : List N) (d : N → TestData ℝ), (l.map fun n => (n, d n)).map Prod.fst = l := by
    intro l d; rw [List.map_map]; exact List.map_id l
  have hcount : ∀ ω, Spec.matchedCount (names.map fun n => (n, cur ω n)) (names'.map fun n => (n, hist ω n)) = m := by
    intro ω
    unfold Spec.matchedCount
    rw [hmap, List.filter_map, List.length_map, hm]
    rfl
  rcases Nat.eq_zero_or_pos m with h0 | hpos
  · have : {ω | significantDifferences ttest (names.map fun n => (n, cur ω n)) (names'.map fun n => (n, hist ω n)) ≠ .ok []} = ∅ := by
      ext ω
      simp only [Set.mem_ofPred_eq, Set.mem_empty_iff_false, iff_false, not_not]
      have hl := matchedTests_length (names.map fun n => (n, cur ω n)) (names'.map fun n => (n, hist ω n))
      rw [hcount, h0, List.length_eq_zero_iff] at hl
      show (if matchedTests _ _ = [] then _ else _) = _
      rw [if_pos hl]
    rw [this, measure_empty]
    exact zero_le
  set α : ℝ := 1 / 20 / ((2 * m : ℕ) : ℝ) with hα
  have hα0 : 0 < α := by
    have : (0 : ℝ) < ((2 * m : ℕ) : ℝ) := by exact_mod_cast (by omega : 0 < 2 * m)
    positivity
  let E : N × Timed → Set Ω := fun q => {ω | Ext.lt (ttest ((cur ω q.1).mean q.2) ((cur ω q.1).std q.2) (cur ω q.1).numRuns ((hist ω q.1).mean q.2) ((hist ω q.1).std q.2)
    (hist ω q.1).numRuns) (Ext.fin α) = true}
  let I : Finset (N × Timed) := (names.filter fun n => n ∈ names').toFinset ×ˢ {Timed.compilation, Timed.execution}
  have hsub : {ω | significantDifferences ttest (names.map fun n => (n, cur ω n)) (names'.map fun n => (n, hist ω n)) ≠ .ok []} ⊆ ⋃ q ∈ I, E q := by
    intro ω hω
    obtain ⟨r, er, -, h1, -⟩ := C38_performance_report htest (names.map fun n => (n, cur ω n)) (names'.map fun n => (n, hist ω n))
      (by rw [hmap]; exact hn) (by rw [hmap]; exact hn')
      (fun x hx => by obtain ⟨n, -, rfl⟩ := List.mem_map.1 hx; exact (hgood ω n).1)
      (fun x hx => by obtain ⟨n, -, rfl⟩ := List.mem_map.1 hx; exact (hgood ω n).2)
    rw [Set.mem_ofPred_eq, er] at hω
    have hne : r ≠ [] := fun h => hω (by rw [h])
    obtain ⟨⟨name, msgs⟩, hmem⟩ := List.exists_mem_of_ne_nil r hne
    obtain ⟨hmn, -, c, h, hc, hh, hrep⟩ := h1 name msgs hmem
    obtain ⟨⟨w, dir⟩, hwd⟩ := List.exists_mem_of_ne_nil msgs hmn
    have hr := ((hrep w dir).1 hwd).1
    rw [hcount] at hr
    obtain ⟨n1, hn1, e1⟩ := List.mem_map.1 hc
    obtain ⟨n2, hn2, e2⟩ := List.mem_map.1 hh
    cases e1
    cases e2
    refine Set.mem_biUnion (x := (name, w)) ?_ hr
    simp only [I, Finset.coe_product, Set.mem_prod, Finset.mem_coe, List.mem_toFinset, List.mem_filter, decide_eq_true_eq]
    refine ⟨⟨hn1, hn2⟩, ?_⟩
    cases w <;> simp
  calc μ _ ≤ μ (⋃ q ∈ I, E q) := measure_mono hsub
    _ ≤ ∑ q ∈ I, μ (E q) := measure_biUnion_finset_le I E
    _ ≤ ∑ q ∈ I, ENNReal.ofReal α := by
        refine Finset.sum_le_sum fun q hq => ?_
        simp only [I, Finset.mem_product, List.mem_toFinset, List.mem_filter, decide_eq_true_eq] at hq
        exact hnull q.1 hq.1.1 hq.1.2 q.2 α hα0
    _ = ENNReal.ofReal (1 / 20) := by
        have hcard : I.card = 2 * m := by
          rw [Finset.card_product, List.toFinset_card_of_nodup (hn.filter _)]
          rw [show ({Timed.compilation, Timed.execution} : Finset Timed).card = 2 from rfl, ← hm, mul_comm]
        rw [Finset.sum_const, hcard, nsmul_eq_mul, ← ENNReal.ofReal_natCast, ← ENNReal.ofReal_mul (by positivity)]
        congr 1
        rw [hα]
        have : ((2 * m : ℕ) : ℝ) ≠ 0 := by exact_mod_cast (by omega : 2 * m ≠ 0)
        field_simp

end familywise

/-- A test meeting the contract: zero for different means, one for equal means. -/
def exampleTTest : TTest ℚ := fun m1 _ _ m2 _ _ => if m1 = m2 then Ext.fin 1 else Ext.fin 0

theorem exampleTTest_contract : TTestContract exampleTTest := by
  intro m s n s' n'
  simp [exampleTTest, Ext.lt]

/-- Two tests on both sides, of which one got slower to run by a half and another did not change by more than ten per cent. -/
example : significantDifferences exampleTTest
    [("a", ⟨Ext.fin 1, Ext.fin 3, Ext.fin 1, Ext.fin 1, 10⟩), ("b", ⟨Ext.fin (11 / 10), Ext.fin 2, Ext.fin 1, Ext.fin 1, 10⟩), ("c", ⟨Ext.fin 5, Ext.fin 2, Ext.fin 1, Ext.fin 1, 10⟩)]
    [("b", ⟨Ext.fin 1, Ext.fin 2, Ext.fin 1, Ext.fin 1, 10⟩), ("a", ⟨Ext.fin 1, Ext.fin 2, Ext.fin 1, Ext.fin 1, 10⟩)]
    = .ok [("a", [(.execution, .increase)])] := by
  decide +kernel

example := C38_compare_means exampleTTest_contract (1 / 20) (by norm_num) 3 2 (.fin 1) (.fin 1) 10 10

/-- A test that finds zero and zero different, which the code then reports as a decrease. -/
example := C38_zero_to_zero (fun _ _ _ _ _ _ => Ext.fin (0 : ℚ)) (1 / 20) (.fin 1) (.fin 1) 10 10 (by decide +kernel)

example := C38_performance_report exampleTTest_contract [("a", ⟨.fin 1, .fin 3, .fin 1, .fin 1, 10⟩)] [("b", ⟨.fin 1, .fin 2, .fin 1, .fin 1, 10⟩), ("a", ⟨.fin 1, .fin 2, .fin 1, .fin 1, 10⟩)]
  (by decide) (by decide) (by simp only [List.mem_cons, List.not_mem_nil, or_false, forall_eq]; intro w; cases w; exacts [⟨1, by norm_num, rfl⟩, ⟨3, by norm_num, rfl⟩])
  (by simp only [List.mem_cons, List.not_mem_nil, or_false, forall_eq_or_imp, forall_eq]; constructor <;> (intro w; cases w; exacts [⟨1, by norm_num, rfl⟩, ⟨2, by norm_num, rfl⟩]))

open Spec in
/-- The family-wise theorem at the test that never rejects, two tests of the same data on both sides. -/
example [MeasurableSpace ℝ] (μ : MeasureTheory.Measure ℝ) [MeasureTheory.IsProbabilityMeasure μ] :
    μ {ω | significantDifferences (fun _ _ _ _ _ _ => Ext.fin 1) (["a", "b"].map fun n => (n, (⟨Ext.fin |ω|, Ext.fin 2, Ext.fin 1, Ext.fin 1, 10⟩ : TestData ℝ)))
      (["b", "a"].map fun n => (n, (⟨Ext.fin 1, Ext.fin |ω|, Ext.fin 1, Ext.fin 1, 10⟩ : TestData ℝ))) ≠ .ok []} ≤ ENNReal.ofReal (1 / 20) := by
  refine C38_familywise μ (ttest := fun _ _ _ _ _ _ => Ext.fin 1) (fun _ _ _ _ _ => by simp [Ext.lt]) ["a", "b"] ["b", "a"] (by decide) (by decide)
    (fun ω _ => ⟨Ext.fin |ω|, Ext.fin 2, Ext.fin 1, Ext.fin 1, 10⟩) (fun ω _ => ⟨Ext.fin 1, Ext.fin |ω|, Ext.fin 1, Ext.fin 1, 10⟩)
    (fun ω n => ⟨fun w => by cases w <;> exact ⟨_, by positivity, rfl⟩, fun w => by cases w <;> exact ⟨_, by positivity, rfl⟩⟩) (fun n _ _ w α hα => ?_)
  by_cases h : 1 < α
  · refine MeasureTheory.prob_le_one.trans ?_
    rw [← ENNReal.ofReal_one]
    exact ENNReal.ofReal_le_ofReal h.le
  · simp [Ext.lt, h]

end Coreax
