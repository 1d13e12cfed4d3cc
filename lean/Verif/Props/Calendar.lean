import Verif.Props.Scripts
import Mathlib.Tactic.IntervalCases
import Mathlib.Tactic.Ring

/-!
# C38: the order of the files is the order in time

The files are ordered by the components of a `datetime`. The specification counts days in the proleptic Gregorian calendar from closed formulas for the days
before a year and before a month; it does not use the table of month lengths of the model.
-/

namespace Coreax

namespace Spec

/-- Days before 1 January of year `y ≥ 1`, counted from 1 January of year 1. -/
def daysBeforeYear (y : ℕ) : ℕ := 365 * (y - 1) + (y - 1) / 4 - (y - 1) / 100 + (y - 1) / 400

/-- Days of year `y` before month `m`; `m = 13` gives the length of the year. Leap years are those of 366 days. -/
def daysBeforeMonth (y m : ℕ) : ℕ :=
  [0, 0, 31, 59, 90, 120, 151, 181, 212, 243, 273, 304, 334, 365].getD m 0 +
    if 2 < m then daysBeforeYear (y + 1) - daysBeforeYear y - 365 else 0

/-- Seconds since the beginning of year 1. -/
def secondsSince (y mo d h mi s : ℕ) : ℕ :=
  (((daysBeforeYear y + daysBeforeMonth y mo + (d - 1)) * 24 + h) * 60 + mi) * 60 + s

/-- The components name a moment of the years 1 to 9999. -/
def IsMoment (y mo d h mi s : ℕ) : Prop :=
  (1 ≤ y ∧ y ≤ 9999) ∧ (1 ≤ mo ∧ mo ≤ 12) ∧ (1 ≤ d ∧ daysBeforeMonth y mo + d ≤ daysBeforeMonth y (mo + 1)) ∧ h < 24 ∧ mi < 60 ∧ s < 60

end Spec

theorem yearLength (y : ℕ) (hy : 1 ≤ y) :
    Spec.daysBeforeYear (y + 1) = Spec.daysBeforeYear y + 365 + (if y % 4 = 0 ∧ (y % 100 ≠ 0 ∨ y % 400 = 0) then 1 else 0) := by
  obtain ⟨z, rfl⟩ : ∃ z, y = z + 1 := ⟨y - 1, by omega⟩
  unfold Spec.daysBeforeYear
  simp only [Nat.add_sub_cancel]
  have h4 : (z + 1) / 4 = z / 4 + if (z + 1) % 4 = 0 then 1 else 0 := by split_ifs <;> omega
  have h100 : (z + 1) / 100 = z / 100 + if (z + 1) % 100 = 0 then 1 else 0 := by split_ifs <;> omega
  have h400 : (z + 1) / 400 = z / 400 + if (z + 1) % 400 = 0 then 1 else 0 := by split_ifs <;> omega
  have i1 : (z + 1) % 100 = 0 → (z + 1) % 4 = 0 := by omega
  have i2 : (z + 1) % 400 = 0 → (z + 1) % 100 = 0 := by omega
  have hle : z / 100 ≤ z := Nat.div_le_self _ _
  rw [h4, h100, h400]
  generalize z / 4 = a at *
  generalize z / 100 = b at *
  generalize z / 400 = c at *
  by_cases c4 : (z + 1) % 4 = 0 <;> by_cases c100 : (z + 1) % 100 = 0 <;> by_cases c400 : (z + 1) % 400 = 0 <;>
    first | exact absurd (i1 c100) c4 | exact absurd (i2 c400) c100 | (simp only [c4, c100, c400, if_true, if_false, true_and, false_and, not_true, not_false_iff, ne_eq, or_true, or_false, true_or, false_or]; clear h4 h100 h400; omega)

theorem daysBeforeMonth_succ (y mo : ℕ) (hy : 1 ≤ y) (h1 : 1 ≤ mo) (h2 : mo ≤ 12) :
    Spec.daysBeforeMonth y (mo + 1) = Spec.daysBeforeMonth y mo + daysIn y mo := by
  have := yearLength y hy
  unfold Spec.daysBeforeMonth daysIn
  interval_cases mo <;> simp <;> split_ifs at * <;> omega

theorem daysBeforeMonth_13 (y : ℕ) (hy : 1 ≤ y) : Spec.daysBeforeYear y + Spec.daysBeforeMonth y 13 = Spec.daysBeforeYear (y + 1) := by
  have := yearLength y hy
  unfold Spec.daysBeforeMonth
  simp
  split_ifs at * <;> omega

theorem daysBeforeMonth_mono (y a b : ℕ) (hy : 1 ≤ y) (ha : 1 ≤ a) (hab : a ≤ b) (hb : b ≤ 13) :
    Spec.daysBeforeMonth y a ≤ Spec.daysBeforeMonth y b := by
  induction b, hab using Nat.le_induction with
  | base => exact le_rfl
  | succ n hn ih => rw [daysBeforeMonth_succ y n hy (by omega) (by omega)]; have := ih (by omega); omega

theorem daysBeforeYear_mono (a b : ℕ) (ha : 1 ≤ a) (hab : a ≤ b) : Spec.daysBeforeYear a ≤ Spec.daysBeforeYear b := by
  induction b, hab using Nat.le_induction with
  | base => exact le_rfl
  | succ n hn ih => rw [yearLength n (by omega)]; omega

/-- C38: a date is accepted exactly if it is a moment of the Gregorian calendar; leap years included. -/
theorem C38_valid_date (y mo d h mi s : ℕ) : validDate y mo d h mi s = true ↔ Spec.IsMoment y mo d h mi s := by
  unfold validDate Spec.IsMoment
  rw [decide_eq_true_eq]
  constructor
  · rintro ⟨h1, h2, h3, h4, h5, h6, h7⟩
    refine ⟨⟨h1, h2⟩, ⟨h3, h4⟩, ⟨h5, ?_⟩, h7⟩
    rw [daysBeforeMonth_succ y mo h1 h3 h4]; omega
  · rintro ⟨⟨h1, h2⟩, ⟨h3, h4⟩, ⟨h5, h6⟩, h7⟩
    rw [daysBeforeMonth_succ y mo h1 h3 h4] at h6
    exact ⟨h1, h2, h3, h4, h5, by omega, h7⟩

theorem seconds_lt_of_day {A B h mi s h' mi' s' : ℕ} (hAB : A < B) (hh : h < 24) (hm : mi < 60) (hs : s < 60) :
    ((A * 24 + h) * 60 + mi) * 60 + s < ((B * 24 + h') * 60 + mi') * 60 + s' := by
  omega

theorem dayNumber_lt_of_lt {y mo d h mi s y' mo' d' h' mi' s' : ℕ} (H : Spec.IsMoment y mo d h mi s) (H' : Spec.IsMoment y' mo' d' h' mi' s')
    (hlt : y < y' ∨ y = y' ∧ (mo < mo' ∨ mo = mo' ∧ d < d')) :
    Spec.daysBeforeYear y + Spec.daysBeforeMonth y mo + (d - 1) < Spec.daysBeforeYear y' + Spec.daysBeforeMonth y' mo' + (d' - 1) := by
  obtain ⟨⟨h1, -⟩, ⟨h3, h4⟩, ⟨h5, h6⟩, -⟩ := H
  obtain ⟨⟨g1, -⟩, ⟨g3, g4⟩, ⟨g5, g6⟩, -⟩ := H'
  rcases hlt with hlt | ⟨rfl, hlt | ⟨rfl, hlt⟩⟩
  · have a := daysBeforeMonth_mono y (mo + 1) 13 h1 (by omega) (by omega) le_rfl
    have b := daysBeforeMonth_13 y h1
    have c := daysBeforeYear_mono (y + 1) y' (by omega) hlt
    omega
  · have a := daysBeforeMonth_mono y (mo + 1) mo' h1 (by omega) hlt (by omega)
    omega
  · omega

theorem seconds_lt_of_lex {y mo d h mi s y' mo' d' h' mi' s' : ℕ} (H : Spec.IsMoment y mo d h mi s) (H' : Spec.IsMoment y' mo' d' h' mi' s')
    (hlt : [y, mo, d, h, mi, s] < [y', mo', d', h', mi', s']) : Spec.secondsSince y mo d h mi s < Spec.secondsSince y' mo' d' h' mi' s' := by
  simp only [List.cons_lt_cons_iff, and_false, or_false, lt_self_iff_false] at hlt
  have hr := H.2.2.2
  have hr' := H'.2.2.2
  unfold Spec.secondsSince
  by_cases hday : y = y' ∧ mo = mo' ∧ d = d'
  · obtain ⟨rfl, rfl, rfl⟩ := hday
    omega
  · have := dayNumber_lt_of_lt H H' (by omega)
    exact seconds_lt_of_day this hr.1 hr.2.1 hr.2.2

/-- C38: among accepted dates, the comparison of the components used for the choice of the most recent file is the order in time. -/
theorem C38_order_is_time (y mo d h mi s y' mo' d' h' mi' s' : ℕ) (H : validDate y mo d h mi s = true) (H' : validDate y' mo' d' h' mi' s' = true) :
    [y, mo, d, h, mi, s] < [y', mo', d', h', mi', s'] ↔ Spec.secondsSince y mo d h mi s < Spec.secondsSince y' mo' d' h' mi' s' := by
  rw [C38_valid_date] at H H'
  constructor
  · exact seconds_lt_of_lex H H'
  · intro hlt
    rcases lt_trichotomy [y, mo, d, h, mi, s] [y', mo', d', h', mi', s'] with hc | hc | hc
    · exact hc
    · simp only [List.cons.injEq] at hc
      obtain ⟨rfl, rfl, rfl, rfl, rfl, rfl, -⟩ := hc
      exact absurd hlt (lt_irrefl _)
    · exact absurd (seconds_lt_of_lex H' H hc) (by omega)

example := C38_order_is_time 2024 2 29 23 59 59 2024 3 1 0 0 0 (by decide) (by decide)

/-- Each day of the calendar has a date: the day numbers of the accepted dates leave no gaps. -/
theorem C38_every_day (N : ℕ) (hN : N < Spec.daysBeforeYear 10000) :
    ∃ y mo d, validDate y mo d 0 0 0 = true ∧ Spec.daysBeforeYear y + Spec.daysBeforeMonth y mo + (d - 1) = N := by
  have hy : ∃ y, 1 ≤ y ∧ y ≤ 9999 ∧ Spec.daysBeforeYear y ≤ N ∧ N < Spec.daysBeforeYear (y + 1) := by
    by_contra hcon
    have : ∀ y, 1 ≤ y → y ≤ 10000 → Spec.daysBeforeYear y ≤ N := by
      intro y h1
      induction y, h1 using Nat.le_induction with
      | base => intro _; simp [Spec.daysBeforeYear]
      | succ n hn ih =>
        intro h
        by_contra hc
        exact hcon ⟨n, hn, by omega, ih (by omega), by omega⟩
    exact absurd (this 10000 (by norm_num) le_rfl) (by omega)
  obtain ⟨y, hy1, hy2, hlo, hhi⟩ := hy
  have hm : ∃ mo, 1 ≤ mo ∧ mo ≤ 12 ∧ Spec.daysBeforeYear y + Spec.daysBeforeMonth y mo ≤ N ∧ N < Spec.daysBeforeYear y + Spec.daysBeforeMonth y (mo + 1) := by
    by_contra hcon
    have : ∀ mo, 1 ≤ mo → mo ≤ 13 → Spec.daysBeforeYear y + Spec.daysBeforeMonth y mo ≤ N := by
      intro mo h1
      induction mo, h1 using Nat.le_induction with
      | base => intro _; simpa [Spec.daysBeforeMonth] using hlo
      | succ n hn ih =>
        intro h
        by_contra hc
        exact hcon ⟨n, hn, by omega, ih (by omega), by omega⟩
    have h13 := this 13 (by norm_num) le_rfl
    rw [daysBeforeMonth_13 y hy1] at h13
    omega
  obtain ⟨mo, hm1, hm2, hlo', hhi'⟩ := hm
  refine ⟨y, mo, N - (Spec.daysBeforeYear y + Spec.daysBeforeMonth y mo) + 1, ?_, by omega⟩
  rw [C38_valid_date]
  exact ⟨⟨hy1, hy2⟩, ⟨hm1, hm2⟩, ⟨by omega, by omega⟩, by norm_num, by norm_num, by norm_num⟩

/-- 29 February exists in 2000 and 2024, not in 1900 and 2023; the second between two days is counted once. -/
example : validDate 2000 2 29 0 0 0 = true ∧ validDate 2024 2 29 23 59 59 = true ∧ validDate 1900 2 29 0 0 0 = false ∧
    validDate 2023 2 29 0 0 0 = false ∧ Spec.secondsSince 2024 3 1 0 0 0 = Spec.secondsSince 2024 2 29 23 59 59 + 1 := by decide +kernel

end Coreax
