import Verif.Model.Scripts
import Mathlib.Algebra.Order.Archimedean.Basic
import Mathlib.Algebra.Order.Field.Rat
import Mathlib.Data.Prod.Lex
import Mathlib.Data.Char
import Mathlib.Data.List.TakeWhile
import Mathlib.Tactic.Linarith
import Mathlib.Tactic.FieldSimp
import Mathlib.Tactic.Positivity
import Mathlib.Tactic.NormNum
import Mathlib.Tactic.IntervalCases

/-!
# C38: comparison of coverage; choice of the most recent file
-/

set_option linter.unusedSectionVars false

namespace Coreax

section coverage
variable {K : Type} [Field K] [LinearOrder K] [IsStrictOrderedRing K]

theorem Ext.fin_sub_eq (a b : K) : (Ext.fin a - Ext.fin b : Ext K) = Ext.fin (a - b) := by
  show Ext.add (Ext.fin a) (Ext.neg (Ext.fin b)) = _
  simp [Ext.add, Ext.neg, sub_eq_add_neg]

theorem Ext.fin_div_of_ne (a b : K) (hb : b ≠ 0) : (Ext.fin a / Ext.fin b : Ext K) = Ext.fin (a / b) := by
  show Ext.div (Ext.fin a) (Ext.fin b) = _
  simp [Ext.div, hb]

/-- C38: the coverage check fails exactly if the total dropped by more than half a percentage point, or by more than one per cent of a positive earlier total. -/
theorem C38_coverage_fails_iff (current historic : K) :
    (checkCoverage (Ext.fin current) (Ext.fin historic)).1 = true ↔
      current < historic - 1 / 2 ∨ (0 < historic ∧ current < historic - historic / 100) := by
  unfold checkCoverage
  simp only [Ext.fin_sub_eq]
  by_cases hpos : 0 < historic
  · rw [Ext.fin_div_of_ne _ _ hpos.ne']
    have hrel : 1 / 100 < (historic - current) / historic ↔ current < historic - historic / 100 := by
      rw [lt_div_iff₀ hpos]; constructor <;> intro h <;> linarith
    simp only [Ext.lt, hpos, decide_true, if_true, Ext.fin.injEq, true_and, hrel]
    split_ifs with h0 h1 h2
    · simp only [Bool.false_eq_true, false_iff, not_or, not_lt]; constructor <;> linarith
    · simp only [decide_eq_true_eq] at h1
      simp only [Bool.false_eq_true, false_iff, not_or, not_lt]; constructor <;> linarith
    · simp only [Bool.or_eq_true, decide_eq_true_eq] at h2
      simp only [true_iff]
      rcases h2 with h2 | h2
      · left; linarith
      · right; exact h2
    · simp only [Bool.or_eq_true, decide_eq_true_eq, not_or] at h2
      simp only [Bool.false_eq_true, false_iff, not_or]
      exact ⟨fun h => h2.1 (by linarith), h2.2⟩
  · have hz : ¬ (1 / 100 : K) < 0 := by norm_num
    simp only [Ext.lt, hpos, decide_false, Bool.false_eq_true, if_false, Ext.fin.injEq, false_and, or_false, hz]
    split_ifs with h0 h1 h2
    · simp only [Bool.false_eq_true, false_iff, not_lt]; linarith
    · simp only [decide_eq_true_eq] at h1
      simp only [Bool.false_eq_true, false_iff, not_lt]; linarith
    · have h2' : 1 / 2 < historic - current := by simpa using h2
      simp only [true_iff]; linarith
    · have h2' : historic - current ≤ 1 / 2 := by simpa using h2
      simp only [Bool.false_eq_true, false_iff, not_lt]; linarith

/-- C38: for a positive earlier total one of the two tolerances is always the stricter: the check compares the drop with their minimum. -/
theorem C38_coverage_tolerance (current historic : K) (h : 0 < historic) :
    (checkCoverage (Ext.fin current) (Ext.fin historic)).1 = true ↔ min (1 / 2) (historic / 100) < historic - current := by
  rw [C38_coverage_fails_iff, min_lt_iff]
  simp only [h, true_and]
  constructor <;> rintro (h | h) <;> first | (left; linarith) | (right; linarith)

example := C38_coverage_tolerance (97 : ℚ) 98 (by norm_num)

/-- C38: what the check prints: the message says in which direction the total moved, and, on failure, which tolerances were exceeded. -/
theorem C38_coverage_report (current historic : K) :
    match (checkCoverage (Ext.fin current) (Ext.fin historic)).2 with
    | .same => current = historic
    | .increased => historic < current
    | .slight => current < historic ∧ historic - current ≤ 1 / 2 ∧ (0 < historic → historic - current ≤ historic / 100)
    | .failed a r => current < historic ∧ (a = true ∨ r = true) ∧ (a = true ↔ 1 / 2 < historic - current) ∧
        (r = true ↔ 0 < historic ∧ historic / 100 < historic - current) := by
  have key := C38_coverage_fails_iff current historic
  unfold checkCoverage at key ⊢
  simp only [Ext.fin_sub_eq, Ext.fin.injEq] at key ⊢
  by_cases h0 : historic - current = 0
  · simp only [h0, if_true]; linarith
  by_cases h1 : historic - current < 0
  · simp only [h0, if_false, Ext.lt, h1, decide_true, if_true]; linarith
  have hlt : current < historic := by
    rcases lt_trichotomy (historic - current) 0 with h | h | h
    · exact absurd h h1
    · exact absurd h h0
    · linarith
  have hrel : Ext.lt (Ext.fin (1 / 100)) (if Ext.lt (Ext.fin 0) (Ext.fin historic) = true then
      Ext.fin (historic - current) / Ext.fin historic else Ext.fin 0) = decide (0 < historic ∧ historic / 100 < historic - current) := by
    by_cases hpos : 0 < historic
    · rw [Ext.fin_div_of_ne _ _ hpos.ne']
      simp only [Ext.lt, hpos, decide_true, if_true, true_and, decide_eq_decide]
      rw [lt_div_iff₀ hpos]; constructor <;> intro h <;> linarith
    · have hz : ¬ (1 / 100 : K) < 0 := by norm_num
      simp only [Ext.lt, hpos, decide_false, Bool.false_eq_true, if_false, hz, false_and]
  rw [hrel] at key ⊢
  simp only [h0, if_false, Ext.lt, h1, decide_false, Bool.false_eq_true] at key ⊢
  by_cases h2 : 1 / 2 < historic - current ∨ (0 < historic ∧ historic / 100 < historic - current)
  · have hc : (decide (1 / 2 < historic - current) || decide (0 < historic ∧ historic / 100 < historic - current)) = true := by
      rw [Bool.or_eq_true, decide_eq_true_eq, decide_eq_true_eq]; exact h2
    simp only [hc, if_true, decide_eq_true_eq]
    exact ⟨hlt, h2, trivial, trivial⟩
  · have hc : (decide (1 / 2 < historic - current) || decide (0 < historic ∧ historic / 100 < historic - current)) = false := by
      rw [Bool.or_eq_false_iff, decide_eq_false_iff_not, decide_eq_false_iff_not]; exact not_or.1 h2
    simp only [hc, Bool.false_eq_true, if_false]
    simp only [not_or, not_lt, not_and] at h2
    exact ⟨hlt, h2.1, h2.2⟩

/-- C38, a gap: a total that is not a number passes, on either side. -/
theorem C38_coverage_nan (x : Ext K) :
    (checkCoverage Ext.nan x).1 = false ∧ (checkCoverage x Ext.nan).1 = false := by
  have h1 : x - Ext.nan = Ext.nan := by cases x <;> rfl
  have h2 : (Ext.nan - x : Ext K) = Ext.nan := by cases x <;> rfl
  have h3 : (Ext.nan / x : Ext K) = Ext.nan := by cases x <;> rfl
  have hz : ¬ (1 / 100 : K) < 0 := by norm_num
  have hz' : decide ((1 / 100 : K) < 0) = false := by simpa using hz
  constructor
  · unfold checkCoverage
    simp only [h1, h3]
    cases hx : Ext.lt (Ext.fin 0) x <;> simp only [Bool.false_eq_true, if_false, if_true, reduceCtorEq, Ext.lt, hz', Bool.or_false]
  · unfold checkCoverage
    simp only [h2]
    simp only [Bool.false_eq_true, if_false, reduceCtorEq, Ext.lt, hz', Bool.or_false]

/-- C38, a gap: only the last total is compared, so that a run of passing checks can take the total from any positive value below any other. -/
theorem C38_coverage_erosion [Archimedean K] (start target : K) (hs : 0 < start) (ht : 0 < target) :
    ∃ (n : ℕ) (total : ℕ → K), total 0 = start ∧ total n ≤ target ∧
      ∀ i, (checkCoverage (Ext.fin (total (i + 1))) (Ext.fin (total i))).1 = false := by
  set r : K := min (1 / 100) (1 / (2 * start)) with hr
  have hr0 : 0 < r := lt_min (by norm_num) (by positivity)
  have hr1 : r ≤ 1 / 100 := min_le_left _ _
  have hr2 : r * start ≤ 1 / 2 := by
    have h := min_le_right (1 / 100) (1 / (2 * start))
    rw [← hr, le_div_iff₀ (by positivity)] at h
    linarith
  have hq0 : 0 < 1 - r := by linarith [show (1 : K) / 100 < 1 by norm_num]
  have hq1 : 1 - r < 1 := by linarith
  obtain ⟨n, hn⟩ := exists_pow_lt_of_lt_one (div_pos ht hs) hq1
  refine ⟨n, fun i => start * (1 - r) ^ i, by simp, ?_, ?_⟩
  · have := (lt_div_iff₀ hs).1 hn
    show start * (1 - r) ^ n ≤ target
    rw [mul_comm]; exact this.le
  · intro i
    by_contra hc
    have hc' := (C38_coverage_fails_iff _ _).1 (by simpa using hc)
    have hp : 0 < start * (1 - r) ^ i := by positivity
    have hle : start * (1 - r) ^ i ≤ start := by
      have : (1 - r) ^ i ≤ 1 := pow_le_one₀ hq0.le hq1.le
      nlinarith
    have e : start * (1 - r) ^ (i + 1) = start * (1 - r) ^ i - r * (start * (1 - r) ^ i) := by ring
    rcases hc' with h | ⟨-, h⟩
    · rw [e] at h
      have := mul_le_mul_of_nonneg_left hle hr0.le
      linarith
    · rw [e] at h
      have := mul_le_mul_of_nonneg_right hr1 hp.le
      linarith

example := C38_coverage_erosion (95 : ℚ) 1 (by norm_num) (by norm_num)

end coverage

/-- Boundary cases at the tolerances. -/
example : (checkCoverage (Ext.fin (99 : ℚ)) (Ext.fin (99.5 : ℚ))).1 = false ∧
    (checkCoverage (Ext.fin (98.9 : ℚ)) (Ext.fin (99.5 : ℚ))).1 = true ∧
    (checkCoverage (Ext.fin (19.7 : ℚ)) (Ext.fin (20 : ℚ))).1 = true ∧
    (checkCoverage (Ext.fin (-1 : ℚ)) (Ext.fin (0 : ℚ))).1 = true := by
  refine ⟨?_, ?_, ?_, ?_⟩
  · rw [← Bool.not_eq_true, C38_coverage_fails_iff]; norm_num
  all_goals rw [C38_coverage_fails_iff]; norm_num

/-! ### The most recent file -/

section latest

/-- The order of keys is a total order, as a lexicographic product. -/
theorem FileKey.lt_iff (a b : FileKey) : a.lt b ↔ @LT.lt (List ℕ ×ₗ List Char) Preorder.toLT (toLex (a.date, a.hash)) (toLex (b.date, b.hash)) :=
  (Prod.Lex.toLex_lt_toLex (α := List ℕ) (β := List Char) (x := (a.date, a.hash)) (y := (b.date, b.hash))).symm

theorem FileKey.lt_trans {a b c : FileKey} (h1 : a.lt b) (h2 : b.lt c) : a.lt c := by
  rw [FileKey.lt_iff] at *; exact h1.trans h2

theorem FileKey.not_lt_of_lt {a b : FileKey} (h : a.lt b) : ¬ b.lt a := by
  rw [FileKey.lt_iff] at *; exact h.le.not_gt

theorem FileKey.lt_of_not_of_lt {a b c : FileKey} (h1 : ¬ b.lt a) (h2 : b.lt c) : a.lt c := by
  rw [FileKey.lt_iff] at *; exact (not_lt.1 h1).trans_lt h2

theorem FileKey.not_lt_trans {a b c : FileKey} (h1 : ¬ a.lt b) (h2 : ¬ b.lt c) : ¬ a.lt c := by
  rw [FileKey.lt_iff] at *; exact not_lt.2 ((not_lt.1 h2).trans (not_lt.1 h1))

variable {F : Type}

theorem latest_spec (l : List (F × FileKey)) :
    match latest l with
    | none => l = []
    | some x => ∃ a b, l = a ++ x :: b ∧ (∀ z ∈ a, z.2.lt x.2) ∧ ∀ z ∈ b, ¬ x.2.lt z.2 := by
  induction l with
  | nil => simp [latest]
  | cons x xs ih =>
    simp only [latest]
    cases h : latest xs with
    | none =>
      rw [h] at ih
      simp only at ih ⊢
      subst ih
      exact ⟨[], [], rfl, by simp, by simp⟩
    | some y =>
      rw [h] at ih
      obtain ⟨a, b, rfl, ha, hb⟩ := ih
      by_cases hlt : x.2.lt y.2
      · simp only [hlt, if_true]
        refine ⟨x :: a, b, rfl, ?_, hb⟩
        intro z hz
        rcases List.mem_cons.1 hz with rfl | hz
        · exact hlt
        · exact ha z hz
      · simp only [hlt, if_false]
        refine ⟨[], a ++ y :: b, rfl, by simp, ?_⟩
        intro z hz
        rcases List.mem_append.1 hz with hz | hz
        · exact FileKey.not_lt_trans hlt (FileKey.not_lt_of_lt (ha z hz))
        · rcases List.mem_cons.1 hz with rfl | hz
          · exact hlt
          · exact FileKey.not_lt_trans hlt (hb z hz)

theorem datedFiles_ok {key : F → Except Err (Option FileKey)} {dir : List F} {l : List (F × FileKey)} (h : datedFiles key dir = .ok l) (f : F) (k : FileKey) :
    (f, k) ∈ l ↔ f ∈ dir ∧ key f = .ok (some k) := by
  induction dir generalizing l with
  | nil => simp only [datedFiles, Except.ok.injEq] at h; subst h; simp
  | cons g fs ih =>
    unfold datedFiles at h
    cases hk : key g with
    | error e => rw [hk] at h; simp [bind, Except.bind] at h
    | ok o =>
      cases hr : datedFiles key fs with
      | error e => rw [hk, hr] at h; simp [bind, Except.bind] at h
      | ok r =>
        rw [hk, hr] at h
        have ihr := ih hr
        cases o with
        | none =>
          simp only [bind, Except.bind, Except.ok.injEq] at h
          subst h
          rw [ihr, List.mem_cons]
          constructor
          · rintro ⟨h1, h2⟩; exact ⟨Or.inr h1, h2⟩
          · rintro ⟨rfl | h1, h2⟩
            · rw [hk] at h2; simp at h2
            · exact ⟨h1, h2⟩
        | some k' =>
          simp only [bind, Except.bind, Except.ok.injEq] at h
          subst h
          rw [List.mem_cons, ihr, List.mem_cons]
          constructor
          · rintro (h1 | ⟨h1, h2⟩)
            · cases h1; exact ⟨Or.inl rfl, hk⟩
            · exact ⟨Or.inr h1, h2⟩
          · rintro ⟨rfl | h1, h2⟩
            · rw [hk] at h2; cases h2; exact Or.inl rfl
            · exact Or.inr ⟨h1, h2⟩

theorem datedFiles_error_iff {key : F → Except Err (Option FileKey)} {dir : List F} :
    (∃ e, datedFiles key dir = .error e) ↔ ∃ f ∈ dir, ∃ e, key f = .error e := by
  induction dir with
  | nil => simp [datedFiles]
  | cons g fs ih =>
    unfold datedFiles
    cases hk : key g with
    | error e => simp [bind, Except.bind, hk]
    | ok o =>
      cases hr : datedFiles key fs with
      | error e =>
        rw [hr] at ih
        simp only [bind, Except.bind, List.mem_cons, exists_eq_or_imp, hk, reduceCtorEq, exists_false, false_or, ← ih]
      | ok r =>
        rw [hr] at ih
        simp only [reduceCtorEq, exists_false, false_iff] at ih
        cases o <;> simp only [bind, Except.bind, List.mem_cons, exists_eq_or_imp, hk, reduceCtorEq, exists_false, false_or, false_iff] <;> exact ih

/-- C38: the file that is read is dated, and no dated file of the directory has a later date, or the same date and a later hash; if the dates and hashes of
the files differ it is the only such file. Without dated files there is none. -/
theorem C38_most_recent (key : F → Except Err (Option FileKey)) (dir : List F) (r : Option F) (h : mostRecent key dir = .ok r) :
    (r = none ↔ ∀ f ∈ dir, ∀ k, key f ≠ .ok (some k)) ∧
    ∀ f, r = some f → f ∈ dir ∧ ∃ k, key f = .ok (some k) ∧ ∀ g ∈ dir, ∀ k', key g = .ok (some k') → ¬ k.lt k' := by
  unfold mostRecent at h
  cases hd : datedFiles key dir with
  | error e => rw [hd] at h; simp [bind, Except.bind] at h
  | ok l =>
    rw [hd] at h
    simp only [bind, Except.bind, Except.ok.injEq] at h
    subst h
    have hmem := datedFiles_ok hd
    have hl := latest_spec l
    cases hlat : latest l with
    | none =>
      rw [hlat] at hl
      simp only at hl
      subst hl
      refine ⟨⟨fun _ f hf k hk => by simpa using (hmem f k).2 ⟨hf, hk⟩, fun _ => rfl⟩, by simp⟩
    | some x =>
      rw [hlat] at hl
      obtain ⟨a, b, rfl, ha, hb⟩ := hl
      have hx := (hmem x.1 x.2).1 (by simp)
      refine ⟨⟨by simp, fun hno => absurd hx.2 (hno _ hx.1 _)⟩, ?_⟩
      intro f hf
      simp only [Option.map_some, Option.some.injEq] at hf
      subst hf
      refine ⟨hx.1, x.2, hx.2, ?_⟩
      intro g hg k' hk'
      have := (hmem g k').2 ⟨hg, hk'⟩
      rcases List.mem_append.1 this with h | h
      · exact FileKey.not_lt_of_lt (ha _ h)
      · rcases List.mem_cons.1 h with h | h
        · rw [← h]
          intro hc
          exact FileKey.not_lt_of_lt hc hc
        · exact hb _ h

example := C38_most_recent (F := ℕ) (fun _ => .ok none) [1, 2] none rfl

/-- C38, a gap: one file whose name has the right shape but no valid date makes the whole comparison fail with an exception. -/
theorem C38_bad_date_aborts (key : F → Except Err (Option FileKey)) (dir : List F) :
    (∃ e, mostRecent key dir = .error e) ↔ ∃ f ∈ dir, ∃ e, key f = .error e := by
  rw [← datedFiles_error_iff]
  unfold mostRecent
  cases datedFiles key dir <;> simp [bind, Except.bind]

/-- C38: the exit code of the coverage script is two exactly if the check against the most recent total fails, and zero otherwise;
without earlier data every total from minus one half upwards passes. -/
theorem C38_coverage_exit {K : Type} [Field K] [LinearOrder K] [IsStrictOrderedRing K] (key : F → Except Err (Option FileKey)) (total : F → Ext K)
    (dir : List F) (current : Ext K) :
    (∀ f, mostRecent key dir = .ok (some f) →
      coverageMain key total dir current = .ok (if (checkCoverage current (total f)).1 then 2 else 0)) ∧
    (mostRecent key dir = .ok none → ∀ c : K, current = Ext.fin c → -(1 / 2) ≤ c → coverageMain key total dir current = .ok 0) := by
  refine ⟨fun f h => by simp [coverageMain, h, bind, Except.bind], fun h c hc hle => ?_⟩
  have : (checkCoverage current (Ext.fin 0)).1 = false := by
    rw [hc, ← Bool.not_eq_true, C38_coverage_fails_iff]
    rintro (h | ⟨h, -⟩)
    · linarith
    · exact lt_irrefl _ h
  simp [coverageMain, h, bind, Except.bind, this]

end latest

/-! ### Names -/

section names

theorem takeExact_iff (p : Char → Bool) (k : ℕ) (s a r : List Char) :
    takeExact p k s = some (a, r) ↔ s = a ++ r ∧ a.length = k ∧ ∀ c ∈ a, p c = true := by
  unfold takeExact
  constructor
  · split_ifs with h
    · intro e
      simp only [Option.some.injEq, Prod.mk.injEq] at e
      obtain ⟨rfl, rfl⟩ := e
      exact ⟨by simp, by simpa using h.1, by simpa using h.2⟩
    · intro e; simp at e
  · rintro ⟨rfl, rfl, hp⟩
    rw [if_pos ⟨by simp, by simpa using hp⟩]
    simp

theorem expect_iff (lit s r : List Char) : expect lit s = some r ↔ s = lit ++ r := by
  unfold expect
  constructor
  · split_ifs with h
    · obtain ⟨t, rfl⟩ := h
      intro e; simp at e; rw [e]
    · intro e; simp at e
  · rintro rfl
    simp

/-- The sixteen digits of a hash. -/
def Spec.hexDigits : List Char := ['0', '1', '2', '3', '4', '5', '6', '7', '8', '9', 'a', 'b', 'c', 'd', 'e', 'f']

/-- Independent description of the names: the parts in order. -/
structure Spec.NameParts (digit : Char → Option ℕ) (pre s year month day hour minute second hash version : List Char) : Prop where
  eq : s = pre ++ ['-'] ++ year ++ ['-'] ++ month ++ ['-'] ++ day ++ ['-', '-'] ++ hour ++ ['-'] ++ minute ++ ['-'] ++ second ++
    ['-', '-'] ++ hash ++ ['-', '-', 'v'] ++ version ++ ['.', 'j', 's', 'o', 'n']
  lengths : year.length = 4 ∧ month.length = 2 ∧ day.length = 2 ∧ hour.length = 2 ∧ minute.length = 2 ∧ second.length = 2 ∧
    hash.length = 40 ∧ 0 < version.length
  digits : ∀ c ∈ year ++ month ++ day ++ hour ++ minute ++ second ++ version, (digit c).isSome
  hex : ∀ c ∈ hash, c ∈ Spec.hexDigits

theorem isHex_iff (c : Char) : isHex c = true ↔ c ∈ Spec.hexDigits := by
  constructor
  · intro h
    simp only [isHex, Bool.or_eq_true, Bool.and_eq_true, decide_eq_true_eq, Char.le_def, UInt32.le_iff_toNat_le] at h
    have hc : c = Char.ofNat c.toNat := (Char.ofNat_toNat c).symm
    rw [hc]
    have h' : (48 ≤ c.toNat ∧ c.toNat ≤ 57) ∨ (97 ≤ c.toNat ∧ c.toNat ≤ 102) := h
    rcases h' with ⟨h1, h2⟩ | ⟨h1, h2⟩ <;> (generalize c.toNat = m at *; interval_cases m <;> decide)
  · intro h
    have : ∀ c ∈ Spec.hexDigits, isHex c = true := by decide
    exact this c h

/-- The regular expression matches exactly the names with such parts (if the full stop is not a digit). -/
theorem matchName_iff (digit : Char → Option ℕ) (hdot : digit '.' = none) (pre s : List Char) (gs : List (List Char)) :
    matchName digit pre s = some gs ↔ ∃ year month day hour minute second hash version,
      Spec.NameParts digit pre s year month day hour minute second hash version ∧
      gs = [year, month, day, hour, minute, second, hash, version] := by
  unfold matchName
  simp (maxSteps := 10000000) only [bind, Option.bind_eq_some_iff, Prod.exists, expect_iff, takeExact_iff]
  constructor
  · rintro ⟨s1, rfl, year, s2, ⟨rfl, l1, d1⟩, s3, rfl, month, s4, ⟨rfl, l2, d2⟩, s5, rfl, day, s6, ⟨rfl, l3, d3⟩, s7, rfl, hour, s8, ⟨rfl, l4, d4⟩,
      s9, rfl, minute, s10, ⟨rfl, l5, d5⟩, s11, rfl, second, s12, ⟨rfl, l6, d6⟩, s13, rfl, hash, s14, ⟨rfl, l7, d7⟩, s15, rfl, hif⟩
    split_ifs at hif with h
    · simp only [Option.some.injEq] at hif
      subst hif
      refine ⟨year, month, day, hour, minute, second, hash, s15.takeWhile (fun c => (digit c).isSome), ⟨?_, ?_, ?_, ?_⟩, rfl⟩
      · conv_lhs => rw [← List.takeWhile_append_dropWhile (p := fun c => (digit c).isSome) (l := s15), h.2]
        simp [List.append_assoc]
      · exact ⟨l1, l2, l3, l4, l5, l6, l7, List.length_pos_iff.2 h.1⟩
      · intro c hc
        simp only [List.mem_append] at hc
        rcases hc with (((((hc | hc) | hc) | hc) | hc) | hc) | hc
        · exact d1 c hc
        · exact d2 c hc
        · exact d3 c hc
        · exact d4 c hc
        · exact d5 c hc
        · exact d6 c hc
        · exact List.mem_takeWhile_imp (p := fun c => (digit c).isSome) hc
      · exact fun c hc => (isHex_iff c).1 (d7 c hc)
  · rintro ⟨year, month, day, hour, minute, second, hash, version, hp, hgs⟩
    obtain ⟨hs, ⟨l1, l2, l3, l4, l5, l6, l7, l8⟩, hd, hh⟩ := hp
    subst hgs
    simp only [List.mem_append] at hd
    have hv : ∀ c ∈ version, (digit c).isSome = true := fun c hc => hd c (by tauto)
    refine ⟨_, by rw [hs]; simp only [List.append_assoc]; rfl, year, _, ⟨rfl, l1, fun c hc => hd c (by tauto)⟩, _, rfl,
      month, _, ⟨rfl, l2, fun c hc => hd c (by tauto)⟩, _, rfl, day, _, ⟨rfl, l3, fun c hc => hd c (by tauto)⟩, _, rfl,
      hour, _, ⟨rfl, l4, fun c hc => hd c (by tauto)⟩, _, rfl, minute, _, ⟨rfl, l5, fun c hc => hd c (by tauto)⟩, _, rfl,
      second, _, ⟨rfl, l6, fun c hc => hd c (by tauto)⟩, _, rfl, hash, _, ⟨rfl, l7, fun c hc => (isHex_iff c).2 (hh c hc)⟩, _, rfl, ?_⟩
    have ht : (version ++ ['.', 'j', 's', 'o', 'n']).takeWhile (fun c => (digit c).isSome) = version := by
      rw [List.takeWhile_append_of_pos hv]; simp [List.takeWhile_cons, hdot]
    have hdr : (version ++ ['.', 'j', 's', 'o', 'n']).dropWhile (fun c => (digit c).isSome) = ['.', 'j', 's', 'o', 'n'] := by
      rw [List.dropWhile_append_of_pos hv]; simp [List.dropWhile_cons, hdot]
    simp only [ht, hdr]
    rw [if_pos ⟨List.length_pos_iff.1 l8, trivial⟩]

/-- C38: a name is dated exactly if it has the documented form with version one and a valid date, and it gets that date and hash; it raises ValueError exactly if
it has the form with version one and the date is not valid. -/
theorem C38_date_from_filename (digit : Char → Option ℕ) (hdot : digit '.' = none) (pre s : List Char) :
    (∀ k, dateFromFilename digit pre s = .ok (some k) ↔ ∃ year month day hour minute second hash version,
      Spec.NameParts digit pre s year month day hour minute second hash version ∧ toInt digit version = 1 ∧
      validDate (toInt digit year) (toInt digit month) (toInt digit day) (toInt digit hour) (toInt digit minute) (toInt digit second) = true ∧
      k = ⟨[toInt digit year, toInt digit month, toInt digit day, toInt digit hour, toInt digit minute, toInt digit second], hash⟩) ∧
    (dateFromFilename digit pre s = .error .valueError ↔ ∃ year month day hour minute second hash version,
      Spec.NameParts digit pre s year month day hour minute second hash version ∧ toInt digit version = 1 ∧
      validDate (toInt digit year) (toInt digit month) (toInt digit day) (toInt digit hour) (toInt digit minute) (toInt digit second) = false) := by
  have hm := matchName_iff digit hdot pre s
  unfold dateFromFilename
  cases hmn : matchName digit pre s with
  | none =>
    have hno : ∀ year month day hour minute second hash version,
        ¬ Spec.NameParts digit pre s year month day hour minute second hash version := by
      intro year month day hour minute second hash version h
      have := (hm _).2 ⟨_, _, _, _, _, _, _, _, h, rfl⟩
      rw [hmn] at this; simp at this
    simp [hno]
  | some gs =>
    obtain ⟨year, month, day, hour, minute, second, hash, version, hp, rfl⟩ := (hm gs).1 hmn
    have huniq : ∀ {year' month' day' hour' minute' second' hash' version'},
        Spec.NameParts digit pre s year' month' day' hour' minute' second' hash' version' →
        year = year' ∧ month = month' ∧ day = day' ∧ hour = hour' ∧ minute = minute' ∧ second = second' ∧ hash = hash' ∧ version = version' := by
      intro _ _ _ _ _ _ _ _ h
      have := (hm _).2 ⟨_, _, _, _, _, _, _, _, h, rfl⟩
      rw [hmn] at this
      simpa using this
    simp only
    by_cases hv : toInt digit version = 1
    · by_cases hd : validDate (toInt digit year) (toInt digit month) (toInt digit day) (toInt digit hour) (toInt digit minute) (toInt digit second) = true
      · simp only [hv, ne_eq, not_true_eq_false, if_false, hd, if_true, Except.ok.injEq, Option.some.injEq, reduceCtorEq, false_iff]
        constructor
        · intro k
          constructor
          · rintro rfl; exact ⟨_, _, _, _, _, _, _, _, hp, hv, hd, rfl⟩
          · rintro ⟨_, _, _, _, _, _, _, _, h, -, -, rfl⟩
            obtain ⟨rfl, rfl, rfl, rfl, rfl, rfl, rfl, rfl⟩ := huniq h; rfl
        · rintro ⟨_, _, _, _, _, _, _, _, h, -, h'⟩
          obtain ⟨rfl, rfl, rfl, rfl, rfl, rfl, rfl, rfl⟩ := huniq h
          rw [hd] at h'; simp at h'
      · simp only [hv, ne_eq, not_true_eq_false, if_false, hd, Bool.false_eq_true, reduceCtorEq, false_iff, true_iff]
        constructor
        · rintro k ⟨_, _, _, _, _, _, _, _, h, -, h', -⟩
          obtain ⟨rfl, rfl, rfl, rfl, rfl, rfl, rfl, rfl⟩ := huniq h
          exact hd h'
        · exact ⟨_, _, _, _, _, _, _, _, hp, hv, by simpa using hd⟩
    · simp only [hv, ne_eq, not_false_eq_true, if_true, Except.ok.injEq, reduceCtorEq, false_iff]
      constructor
      · rintro k ⟨_, _, _, _, _, _, _, _, h, h', -⟩
        obtain ⟨rfl, rfl, rfl, rfl, rfl, rfl, rfl, rfl⟩ := huniq h
        exact hv h'
      · rintro ⟨_, _, _, _, _, _, _, _, h, h', -⟩
        obtain ⟨rfl, rfl, rfl, rfl, rfl, rfl, rfl, rfl⟩ := huniq h
        exact hv h'

/-- The value of ASCII digits. -/
def asciiDigit (c : Char) : Option ℕ := if '0' ≤ c ∧ c ≤ '9' then some (c.toNat - 48) else none

example : dateFromFilename asciiDigit "coverage".toList
    "coverage-2024-02-29--23-59-59--0123456789abcdef0123456789abcdef01234567--v1.json".toList =
    .ok (some ⟨[2024, 2, 29, 23, 59, 59], "0123456789abcdef0123456789abcdef01234567".toList⟩) := by decide +kernel
example : dateFromFilename asciiDigit "coverage".toList
    "coverage-2023-02-29--23-59-59--0123456789abcdef0123456789abcdef01234567--v1.json".toList = .error .valueError := by decide +kernel
example : dateFromFilename asciiDigit "coverage".toList
    "coverage-2024-02-29--23-59-59--0123456789abcdef0123456789abcdef01234567--v2.json".toList = .ok none := by decide +kernel

end names

end Coreax
