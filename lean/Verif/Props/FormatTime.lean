import Verif.Props.Util
import Mathlib.Algebra.Order.Floor.Ring
import Mathlib.Algebra.Order.Archimedean.Basic

/-!
# C45: the text of a formatted time
-/

namespace Coreax

namespace Spec

/-- The time that a number with a unit denotes, in seconds. -/
noncomputable def denotes (p : ℝ × TimeUnit) : ℝ := p.1 * seconds p.2

end Spec

namespace FormatTime

open Spec

theorem round2_error (x : ℝ) : |round2 x - x| ≤ 1 / 200 := by
  have h1 := Int.floor_le (100 * x)
  have h2 := Int.lt_floor_add_one (100 * x)
  unfold round2
  rw [abs_le]
  dsimp only
  split_ifs <;> push_cast <;> constructor <;> linarith

/-- Between two consecutive integers the rounded number is one of them. -/
theorem round2_mem (x : ℝ) : ∃ z : ℤ, round2 x = z / 100 ∧ (z = ⌊100 * x⌋ ∨ z = ⌊100 * x⌋ + 1 ∧ 1 / 2 ≤ 100 * x - ⌊100 * x⌋) := by
  unfold round2
  dsimp only
  split_ifs with h1 h2 h3
  · exact ⟨_, rfl, Or.inl rfl⟩
  · exact ⟨_, rfl, Or.inr ⟨rfl, h2.le⟩⟩
  · exact ⟨_, rfl, Or.inl rfl⟩
  · exact ⟨_, rfl, Or.inr ⟨rfl, not_lt.1 h1⟩⟩

theorem round2_mono {x y : ℝ} (h : x ≤ y) : round2 x ≤ round2 y := by
  have hf : ⌊100 * x⌋ ≤ ⌊100 * y⌋ := Int.floor_le_floor (by linarith)
  rcases eq_or_lt_of_le hf with he | hl
  · unfold round2
    dsimp only
    rw [he]
    have : (100 * x - ⌊100 * y⌋ : ℝ) ≤ 100 * y - ⌊100 * y⌋ := by linarith
    refine div_le_div_of_nonneg_right ?_ (by norm_num)
    rw [Int.cast_le]
    split_ifs <;> first | omega | (exfalso; linarith)
  · obtain ⟨a, ha, ha'⟩ := round2_mem x
    obtain ⟨b, hb, hb'⟩ := round2_mem y
    rw [ha, hb]
    refine div_le_div_of_nonneg_right ?_ (by norm_num)
    rw [Int.cast_le]
    rcases ha' with ha' | ⟨ha', -⟩ <;> rcases hb' with hb' | ⟨hb', -⟩ <;> omega

theorem round2_cents (z : ℤ) : round2 (z / 100) = z / 100 := by
  unfold round2
  have : (100 : ℝ) * (z / 100) = z := by ring
  rw [this]
  simp

theorem round2_neg (x : ℝ) : round2 (-x) = -round2 x := by
  unfold round2
  dsimp only
  have e : 100 * -x = -(100 * x) := by ring
  rw [e, Int.floor_neg]
  set y := 100 * x
  by_cases hy : (⌊y⌋ : ℝ) = y
  · have hc : ⌈y⌉ = ⌊y⌋ := by
      rw [← hy]; simp
    rw [hc]
    have h1 : -y - ((-⌊y⌋ : ℤ) : ℝ) < 1 / 2 := by push_cast; rw [hy]; norm_num
    have h2 : y - (⌊y⌋ : ℝ) < 1 / 2 := by rw [hy]; norm_num
    rw [if_pos h1, if_pos h2]
    push_cast
    ring
  · have hc : ⌈y⌉ = ⌊y⌋ + 1 := by
      rw [Int.ceil_eq_iff]
      push_cast
      exact ⟨by linarith [lt_of_le_of_ne (Int.floor_le y) hy], (Int.lt_floor_add_one y).le⟩
    rw [hc]
    push_cast
    have hev : Even (-(⌊y⌋ + 1)) ↔ ¬ Even ⌊y⌋ := by rw [even_neg, Int.even_add_one]
    by_cases a : y - ⌊y⌋ < 1 / 2
    · rw [if_pos a, if_neg (by linarith), if_pos (by linarith)]
      push_cast; ring
    · by_cases b : 1 / 2 < y - ⌊y⌋
      · rw [if_neg a, if_pos b, if_pos (by linarith)]
        push_cast; ring
      · rw [if_neg a, if_neg b, if_neg (by linarith), if_neg (by linarith)]
        by_cases ev : Even ⌊y⌋
        · rw [if_pos ev, if_neg (by rw [hev]; simpa using ev)]
          push_cast; ring
        · rw [if_neg ev, if_pos (by rw [hev]; exact ev)]
          push_cast; ring

theorem shown_of {num v : ℝ} {u : TimeUnit} (h : formatTime num = some (v, u)) : formatTimeShown num = (round2 v, u) := by
  rw [formatTimeShown, h]

theorem shown_zero : formatTimeShown 0 = (0, .s) := by
  rw [formatTimeShown, (C45_format_time 0).1.2 rfl]

theorem shown_neg (num : ℝ) : formatTimeShown (-num) = (-(formatTimeShown num).1, (formatTimeShown num).2) := by
  by_cases h0 : num = 0
  · subst h0
    simp [shown_zero]
  · have h0' : -num ≠ 0 := neg_ne_zero.2 h0
    unfold formatTimeShown formatTime
    rw [if_neg h0, if_neg h0', abs_neg]
    dsimp only
    split_ifs <;> simp [← round2_neg, neg_div]

/-- The range of positive times shown in a unit. -/
noncomputable def lower : TimeUnit → ℝ
  | .ps => 0
  | .ns => 1 / 10 ^ 9
  | .us => 1 / 10 ^ 6
  | .ms => 1 / 10 ^ 3
  | .s => 1
  | .mins => 100

noncomputable def upper : TimeUnit → Option ℝ
  | .ps => some (1 / 10 ^ 9)
  | .ns => some (1 / 10 ^ 6)
  | .us => some (1 / 10 ^ 3)
  | .ms => some 1
  | .s => some 100
  | .mins => none

theorem range_of {num v : ℝ} {u : TimeUnit} (hn : 0 < num) (h : formatTime num = some (v, u)) :
    lower u ≤ num ∧ (∀ t, upper u = some t → num < t) ∧ lower u ≤ denotes (round2 v, u) ∧ ∀ t, upper u = some t → denotes (round2 v, u) ≤ t := by
  obtain ⟨h1, h2⟩ := (C45_format_time num).2 v u h
  have hs : 0 < seconds u := by cases u <;> norm_num [seconds]
  have hv : 0 < v := by
    by_contra hc
    nlinarith [mul_nonneg hs.le (neg_nonneg.2 (not_lt.1 hc))]
  have c0 : round2 0 = 0 := by simpa using round2_cents 0
  have c1 : round2 1 = 1 := by simpa using round2_cents 100
  have c100 : round2 100 = 100 := by have := round2_cents 10000; norm_num at this; exact this
  have c1000 : round2 1000 = 1000 := by have := round2_cents 100000; norm_num at this; exact this
  have m0 := round2_mono hv.le
  rw [c0] at m0
  cases u <;> simp only [InRange, seconds, lower, upper, denotes, abs_of_pos hv, Option.some.injEq, forall_eq', reduceCtorEq, false_imp_iff, implies_true, and_true, true_and] at *
  · have h3 := round2_error v
    obtain ⟨z, hz, -⟩ := round2_mem v
    refine ⟨by linarith, ?_⟩
    have h4 : round2 (5 / 3) ≤ round2 v := round2_mono (by linarith)
    have h5 : round2 (5 / 3) = 167 / 100 := by
      unfold round2
      have : ⌊(100 : ℝ) * (5 / 3)⌋ = 166 := by
        rw [Int.floor_eq_iff]; norm_num
      rw [this]
      norm_num
    linarith
  · have := round2_mono h2.2.le
    refine ⟨by linarith, by linarith, by positivity, by linarith⟩
  · have := round2_mono h2.2.le
    have := round2_mono h2.1
    refine ⟨by linarith, by linarith, by linarith, by linarith⟩
  · have := round2_mono h2.2.le
    have := round2_mono h2.1
    refine ⟨by linarith, by linarith, by linarith, by linarith⟩
  · have := round2_mono h2.2.le
    have := round2_mono h2.1
    refine ⟨by linarith, by linarith, by linarith, by linarith⟩
  · have := round2_mono h2.2.le
    have := round2_mono h2.1
    refine ⟨by linarith, by linarith, by linarith, by linarith⟩

theorem exists_format {num : ℝ} (h : num ≠ 0) : ∃ v u, formatTime num = some (v, u) := by
  rcases hf : formatTime num with _ | ⟨v, u⟩
  · exact absurd ((C45_format_time _).1.1 hf) h
  · exact ⟨v, u, rfl⟩

theorem denotes_neg (num : ℝ) : denotes (formatTimeShown (-num)) = -denotes (formatTimeShown num) := by
  rw [shown_neg, denotes, denotes, neg_mul]

theorem denotes_nonneg {num : ℝ} (h : 0 ≤ num) : 0 ≤ denotes (formatTimeShown num) := by
  rcases h.eq_or_lt with rfl | h
  · simp [shown_zero, denotes]
  · obtain ⟨v, u, hf⟩ := exists_format h.ne'
    rw [shown_of hf]
    refine le_trans ?_ (range_of h hf).2.2.1
    cases u <;> norm_num [lower]

theorem denotes_mono_pos {a b : ℝ} (ha : 0 < a) (h : a ≤ b) : denotes (formatTimeShown a) ≤ denotes (formatTimeShown b) := by
  have hb := ha.trans_le h
  obtain ⟨v, u, hf⟩ := exists_format ha.ne'
  obtain ⟨v', u', hf'⟩ := exists_format hb.ne'
  obtain ⟨a1, a2, -, a4⟩ := range_of ha hf
  obtain ⟨b1, b2, b3, -⟩ := range_of hb hf'
  rw [shown_of hf, shown_of hf']
  by_cases hu : u = u'
  · subst hu
    have hs : 0 < seconds u := by cases u <;> norm_num [seconds]
    have e1 := ((C45_format_time a).2 v u hf).1
    have e2 := ((C45_format_time b).2 v' u hf').1
    have hv : v ≤ v' := by
      by_contra hc
      nlinarith [mul_lt_mul_of_pos_right (not_le.1 hc) hs]
    exact mul_le_mul_of_nonneg_right (round2_mono hv) hs.le
  · cases u <;> cases u' <;> first | exact absurd rfl hu | (
      simp only [lower, upper, Option.some.injEq, forall_eq', reduceCtorEq, false_imp_iff, implies_true] at a1 a2 a4 b1 b2 b3
      norm_num at a1 a2 a4 b1 b2 b3 ⊢
      linarith)

end FormatTime

open Spec FormatTime

/-- **C45.** What is printed: a multiple of a hundredth of the unit, within half a hundredth of the unit of the time, and within half a
percent of the time if that is at least a picosecond. -/
theorem C45_shown (num : ℝ) :
    (∃ z : ℤ, (formatTimeShown num).1 = z / 100) ∧ |denotes (formatTimeShown num) - num| ≤ seconds (formatTimeShown num).2 / 200 ∧
      (1 / 10 ^ 12 ≤ |num| → |denotes (formatTimeShown num) - num| ≤ |num| / 200) := by
  by_cases h0 : num = 0
  · subst h0
    rw [shown_zero]
    refine ⟨⟨0, by simp⟩, by simp [denotes, seconds], fun h => ?_⟩
    norm_num at h
  · obtain ⟨v, u, hf⟩ := exists_format h0
    have h1 := C45_format_time_rounded round2 round2_error num v u hf
    rw [shown_of hf]
    obtain ⟨z, hz, -⟩ := round2_mem v
    refine ⟨⟨z, hz⟩, h1, fun h => h1.trans ?_⟩
    obtain ⟨e1, e2⟩ := (C45_format_time num).2 v u hf
    have hs : 0 < seconds u := by cases u <;> norm_num [seconds]
    have e3 : |v| * seconds u = |num| := by rw [← e1, abs_mul, abs_of_pos hs]
    have hv : 1 ≤ |v| := by
      cases u <;> simp only [InRange, seconds] at e2 e3
      · linarith
      · rw [← e3] at h
        norm_num at h
        linarith
      · exact e2.1
      · exact e2.1
      · exact e2.1
      · exact e2.1
    nlinarith

/-- **C45.** A longer time is never printed as a shorter one; negative times are printed as their opposites. -/
theorem C45_shown_mono : Monotone (fun num => denotes (formatTimeShown num)) ∧ ∀ num, denotes (formatTimeShown (-num)) = -denotes (formatTimeShown num) := by
  refine ⟨fun a b h => ?_, denotes_neg⟩
  dsimp only
  rcases lt_or_ge 0 a with ha | ha
  · exact denotes_mono_pos ha h
  · rcases le_or_gt 0 b with hb | hb
    · refine le_trans ?_ (denotes_nonneg hb)
      have := denotes_nonneg (neg_nonneg.2 ha)
      rw [denotes_neg] at this
      linarith
    · have := denotes_mono_pos (neg_pos.2 hb) (neg_le_neg h)
      rw [denotes_neg, denotes_neg] at this
      linarith

/-- **C45.** The unit is chosen before rounding: just below a second, a time is printed as a thousand milliseconds. -/
theorem C45_thousand (num : ℝ) (h : 0.999995 < num) (h1 : num < 1) : formatTimeShown num = (1000, .ms) := by
  have h0 : 0 < num := by linarith
  obtain ⟨v, u, hf⟩ := exists_format h0.ne'
  obtain ⟨a1, a2, -, -⟩ := range_of h0 hf
  obtain ⟨e1, -⟩ := (C45_format_time num).2 v u hf
  have hu : u = .ms := by
    cases u <;> simp only [lower, upper, Option.some.injEq, forall_eq', reduceCtorEq, false_imp_iff, implies_true] at a1 a2 <;> norm_num at a1 a2 ⊢ <;> linarith
  subst hu
  rw [shown_of hf]
  simp only [seconds] at e1
  have hv : v = 1000 * num := by linarith
  congr 1
  unfold round2
  have hfl : ⌊100 * v⌋ = 99999 := by
    rw [Int.floor_eq_iff, hv]
    constructor <;> push_cast <;> linarith
  rw [hfl]
  dsimp only
  rw [if_neg (by push_cast; linarith), if_pos (by push_cast; linarith)]
  norm_num

example := C45_thousand 0.999999 (by norm_num) (by norm_num)

-- 99.999 seconds are printed as 100 seconds, 100 seconds as 1.67 minutes: 100.2 seconds
example : round2 99.999 = 100 ∧ round2 (100 / 60) * 60 = 100.2 := by
  have h1 : ⌊(100 : ℝ) * 99.999⌋ = 9999 := by rw [Int.floor_eq_iff]; norm_num
  have h2 : ⌊(100 : ℝ) * (100 / 60)⌋ = 166 := by rw [Int.floor_eq_iff]; norm_num
  unfold round2
  rw [h1, h2]
  norm_num

-- ties go to the even hundredth
example : round2 0.125 = 0.12 ∧ round2 0.135 = 0.14 := by
  have h1 : ⌊(100 : ℝ) * 0.125⌋ = 12 := by rw [Int.floor_eq_iff]; norm_num
  have h2 : ⌊(100 : ℝ) * 0.135⌋ = 13 := by rw [Int.floor_eq_iff]; norm_num
  unfold round2
  rw [h1, h2]
  have : ¬ Even (13 : ℤ) := by decide
  have : Even (12 : ℤ) := by decide
  norm_num [*]

end Coreax
