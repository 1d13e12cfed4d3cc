import Verif.Model.FloatLog
import Verif.Props.TreeRecombination
import Verif.Props.ThinningReduce
import Verif.Props.Rounding
import Mathlib.Analysis.Complex.ExponentialBounds

/-!
# Logarithms computed in floating point

C72: what the integers computed from rounded logarithms can be, and what follows for the solvers.
-/

set_option linter.unusedSectionVars false

namespace Coreax

open Spec

namespace Spec

/-- Relative error at most `u` in each operation. -/
structure Accurate (o : LogOps) (u : ℝ) : Prop where
  sub : ∀ a b, |o.sub a b - (a - b)| ≤ u * |a - b|
  div : ∀ a b, b ≠ 0 → |o.div a b - a / b| ≤ u * |a / b|
  log2 : ∀ a, 0 < a → |o.log2 a - Real.logb 2 a| ≤ u * |Real.logb 2 a|
  ln : ∀ a, 0 < a → |o.ln a - Real.log a| ≤ u * |Real.log a|

/-- The operations are exact where the result is a small integer or a power of two: logarithms of powers of two, quotients that are powers of
two, differences of integers up to `1024`. -/
structure ExactAtPowers (o : LogOps) : Prop where
  log2 : ∀ e : ℕ, e ≤ 1024 → o.log2 (2 ^ e) = e
  div : ∀ (a : ℝ) (e : ℕ), a ≠ 0 → o.div (a * 2 ^ e) a = 2 ^ e
  sub : ∀ a b : ℕ, b ≤ a → a ≤ 1024 → o.sub (a : ℝ) (b : ℝ) = (a : ℝ) - (b : ℝ)

/-- `n` rows are few enough for the accuracy `u`: `32 u n B < 1` where `n ≤ 2 ^ B`. In double precision (`u = 2⁻⁵²`) this holds up to `n = 2 ^ 40`. -/
def FewRows (u : ℝ) (n : ℕ) : Prop := ∃ B : ℕ, 1 ≤ B ∧ n ≤ 2 ^ B ∧ 32 * u * B * n < 1

end Spec

namespace FLog

/-! ### Gaps between logarithms of fractions and integers -/

theorem log_gap {a b : ℝ} (ha : 0 < a) (h : a + 1 ≤ b) : 1 / b ≤ Real.log (b / a) := by
  have hb : 0 < b := by linarith
  have h1 := Real.one_sub_inv_le_log_of_pos (div_pos hb ha)
  refine le_trans ?_ h1
  rw [inv_div, div_le_iff₀ hb, sub_mul, div_mul_cancel₀ _ hb.ne']
  linarith

theorem logb_sub_pow {b : ℕ} (hb : 2 ≤ b) {p q : ℕ} (hp : 0 < p) (hq : 0 < q) (e : ℕ) :
    Real.logb b ((p : ℝ) / q) - e = Real.log ((p : ℝ) / (q * (b : ℝ) ^ e : ℝ)) / Real.log b := by
  have hp' : (0 : ℝ) < p := by exact_mod_cast hp
  have hq' : (0 : ℝ) < q := by exact_mod_cast hq
  have hb' : (0 : ℝ) < b := by exact_mod_cast (by omega : 0 < b)
  have hl : 0 < Real.log b := Real.log_pos (by exact_mod_cast (by omega : 1 < b))
  rw [Real.logb, Real.log_div hp'.ne' hq'.ne', Real.log_div hp'.ne' (by positivity), Real.log_mul hq'.ne' (by positivity), Real.log_pow]
  field_simp
  ring

theorem log_base_pos {b : ℕ} (hb : 2 ≤ b) : 1 / 2 < Real.log b := by
  have h1 : Real.log 2 ≤ Real.log b := Real.log_le_log (by norm_num) (by exact_mod_cast hb)
  have := Real.log_two_gt_d9
  linarith

theorem gap_above {b : ℕ} (hb : 2 ≤ b) {p q e : ℕ} (hp : 0 < p) (hq : 0 < q) (h : p < q * b ^ e) :
    Real.logb b ((p : ℝ) / q) ≤ e - 1 / ((p + 1) * Real.log b) := by
  have hl := log_base_pos hb
  have hp' : (0 : ℝ) < p := by exact_mod_cast hp
  have hqb : (p : ℝ) + 1 ≤ q * (b : ℝ) ^ e := by exact_mod_cast h
  have h1 := logb_sub_pow hb hp hq e
  have h2 : 1 / ((p : ℝ) + 1) ≤ Real.log ((p + 1) / p) := log_gap hp' le_rfl
  have h3 : Real.log (((p : ℝ) + 1) / p) ≤ Real.log (q * (b : ℝ) ^ e / p) := Real.log_le_log (by positivity) (by gcongr)
  have h4 : Real.log ((p : ℝ) / (q * (b : ℝ) ^ e)) = - Real.log (q * (b : ℝ) ^ e / p) := by rw [← Real.log_inv, inv_div]
  rw [h4] at h1
  have h5 : 1 / (((p : ℝ) + 1) * Real.log b) ≤ Real.log (q * (b : ℝ) ^ e / p) / Real.log b := by
    rw [← div_div]
    exact div_le_div_of_nonneg_right (h2.trans h3) (by linarith)
  rw [neg_div] at h1
  linarith

theorem gap_below {b : ℕ} (hb : 2 ≤ b) {p q e : ℕ} (hq : 0 < q) (h : q * b ^ e < p) :
    e + 1 / ((p + 1) * Real.log b) ≤ Real.logb b ((p : ℝ) / q) := by
  have hl := log_base_pos hb
  have hp : 0 < p := by omega
  have hp' : (0 : ℝ) < p := by exact_mod_cast hp
  have hqb : q * (b : ℝ) ^ e + 1 ≤ p := by exact_mod_cast h
  have hpos : (0 : ℝ) < q * (b : ℝ) ^ e := by
    have : 0 < q * b ^ e := Nat.mul_pos hq (Nat.pow_pos (by omega))
    exact_mod_cast this
  have h1 := logb_sub_pow hb hp hq e
  have h2 := log_gap hpos hqb
  have h5 : 1 / (((p : ℝ) + 1) * Real.log b) ≤ Real.log (p / (q * (b : ℝ) ^ e)) / Real.log b := by
    rw [← div_div]
    refine div_le_div_of_nonneg_right (le_trans ?_ h2) (by linarith)
    exact one_div_le_one_div_of_le hp' (by linarith)
  linarith

theorem at_power {b : ℕ} (hb : 2 ≤ b) {p q e : ℕ} (hq : 0 < q) (h : p = q * b ^ e) : Real.logb b ((p : ℝ) / q) = e := by
  have hp : 0 < p := h ▸ Nat.mul_pos hq (Nat.pow_pos (by omega))
  have h1 := logb_sub_pow hb hp hq e
  have h2 : (p : ℝ) = q * (b : ℝ) ^ e := by rw [h]; push_cast; ring
  rw [← h2, div_self (by exact_mod_cast hp.ne'), Real.log_one, zero_div] at h1
  linarith

theorem gap_le {b : ℕ} (hb : 2 ≤ b) {p : ℕ} (hp : 0 < p) : 1 / (((p : ℝ) + 1) * Real.log b) < 1 := by
  have hl := log_base_pos hb
  have hp' : (1 : ℝ) ≤ p := by exact_mod_cast hp
  rw [div_lt_one (by positivity)]
  nlinarith

/-- The floor of an approximate logarithm of `p / q`. -/
theorem floor_near {b : ℕ} (hb : 2 ≤ b) {p q e : ℕ} (hp : 0 < p) (hq : 0 < q) (h1 : q * b ^ e ≤ p) (h2 : p < q * b ^ (e + 1)) {L ε : ℝ}
    (hL : |L - Real.logb b ((p : ℝ) / q)| ≤ ε) (hε : ε * ((p + 1) * Real.log b) < 1) :
    ⌊L⌋ = (e : ℤ) ∨ (p = q * b ^ e ∧ ⌊L⌋ = (e : ℤ) - 1) := by
  have hl := log_base_pos hb
  have hε' : ε < 1 / (((p : ℝ) + 1) * Real.log b) := by rwa [lt_div_iff₀ (by positivity)]
  have ha := gap_above hb hp hq h2
  have hg := gap_le hb hp
  obtain ⟨hL1, hL2⟩ := abs_le.1 hL
  push_cast at ha
  rcases h1.lt_or_eq with h | h
  · left
    have := gap_below hb hq h
    rw [Int.floor_eq_iff]
    push_cast
    exact ⟨by linarith, by linarith⟩
  · have hx := at_power hb hq h.symm
    by_cases hle : (e : ℝ) ≤ L
    · left
      rw [Int.floor_eq_iff]
      push_cast
      exact ⟨hle, by linarith⟩
    · right
      refine ⟨h.symm, ?_⟩
      rw [Int.floor_eq_iff]
      push_cast
      exact ⟨by linarith, by linarith⟩

/-- The ceiling of an approximate logarithm of `p / q`. -/
theorem ceil_near {b : ℕ} (hb : 2 ≤ b) {p q e : ℕ} (hq : 0 < q) (h1 : q * b ^ e < p) (h2 : p ≤ q * b ^ (e + 1)) {L ε : ℝ}
    (hL : |L - Real.logb b ((p : ℝ) / q)| ≤ ε) (hε : ε * ((p + 1) * Real.log b) < 1) :
    ⌈L⌉ = (e : ℤ) + 1 ∨ (p = q * b ^ (e + 1) ∧ ⌈L⌉ = (e : ℤ) + 2) := by
  have hp : 0 < p := by omega
  have hl := log_base_pos hb
  have hε' : ε < 1 / (((p : ℝ) + 1) * Real.log b) := by rwa [lt_div_iff₀ (by positivity)]
  have ha := gap_below hb hq h1
  have hg := gap_le hb hp
  obtain ⟨hL1, hL2⟩ := abs_le.1 hL
  rcases h2.lt_or_eq with h | h
  · left
    have := gap_above hb hp hq h
    rw [Int.ceil_eq_iff]
    push_cast at this ⊢
    exact ⟨by linarith, by linarith⟩
  · have hx := at_power hb hq h
    push_cast at hx
    by_cases hle : L ≤ (e : ℝ) + 1
    · left
      rw [Int.ceil_eq_iff]
      push_cast
      exact ⟨by linarith, by linarith⟩
    · right
      refine ⟨h, ?_⟩
      rw [Int.ceil_eq_iff]
      push_cast
      exact ⟨by linarith, by linarith⟩

/-! ### Errors of the computed logarithms -/

theorem log_rel {u x y : ℝ} (hu : 0 ≤ u) (hu2 : u ≤ 1 / 2) (hx : 0 < x) (h : |y - x| ≤ u * x) : 0 < y ∧ |Real.log y - Real.log x| ≤ 2 * u := by
  obtain ⟨h1, h2⟩ := abs_le.1 h
  have hy : 0 < y := by nlinarith
  refine ⟨hy, abs_le.2 ⟨?_, ?_⟩⟩
  · have h3 := Real.one_sub_inv_le_log_of_pos (div_pos hy hx)
    rw [Real.log_div hy.ne' hx.ne', inv_div] at h3
    have h4 : x / y ≤ 1 + 2 * u := by
      rw [div_le_iff₀ hy]
      nlinarith
    linarith
  · have h3 := Real.log_le_sub_one_of_pos (div_pos hy hx)
    rw [Real.log_div hy.ne' hx.ne'] at h3
    have h4 : y / x ≤ 1 + u := by
      rw [div_le_iff₀ hx]
      nlinarith
    linarith

theorem quotient_error {u X C a c r : ℝ} (hu : 0 ≤ u) (hu2 : u ≤ 1 / 2) (hC : 0 < C) (ha : |a - X| ≤ u * (|X| + 3)) (hc : |c - C| ≤ u * C)
    (hr : |r - a / c| ≤ u * |a / c|) : |r - X / C| ≤ u * (7 * |X| + 9) / C := by
  obtain ⟨hc1, hc2⟩ := abs_le.1 hc
  have hcpos : C / 2 ≤ c := by nlinarith
  have hc0 : 0 < c := by linarith
  have h1 : |a / c - X / C| ≤ 2 * u * (2 * |X| + 3) / C := by
    have e : a / c - X / C = ((a - X) * C - X * (c - C)) / (c * C) := by
      field_simp
      ring
    rw [e, abs_div, abs_of_pos (mul_pos hc0 hC), div_le_div_iff₀ (mul_pos hc0 hC) hC]
    have h2 : |(a - X) * C - X * (c - C)| ≤ u * (|X| + 3) * C + |X| * (u * C) := by
      refine (abs_sub _ _).trans ?_
      rw [abs_mul, abs_mul, abs_of_pos hC]
      gcongr
    have hX := abs_nonneg X
    have h3 : u * (|X| + 3) * C + |X| * (u * C) = u * (2 * |X| + 3) * C := by ring
    rw [h3] at h2
    have h4 : 0 ≤ u * (2 * |X| + 3) * C := by positivity
    calc |(a - X) * C - X * (c - C)| * C ≤ u * (2 * |X| + 3) * C * C := mul_le_mul_of_nonneg_right h2 hC.le
      _ ≤ u * (2 * |X| + 3) * C * (2 * c) := mul_le_mul_of_nonneg_left (by linarith) h4
      _ = 2 * u * (2 * |X| + 3) * (c * C) := by ring
  have hX := abs_nonneg X
  have h5 : |a / c| ≤ |X| / C + (2 * |X| + 3) / C := by
    have e1 : |X / C| = |X| / C := by rw [abs_div, abs_of_pos hC]
    have h6 : |a / c| ≤ |X / C| + |a / c - X / C| := by
      have := abs_add_le (X / C) (a / c - X / C)
      rwa [add_sub_cancel] at this
    have h7 : 2 * u * (2 * |X| + 3) / C ≤ (2 * |X| + 3) / C := by
      refine div_le_div_of_nonneg_right ?_ hC.le
      nlinarith
    rw [e1] at h6
    linarith
  have h8 := abs_sub_le r (a / c) (X / C)
  have h9 : u * |a / c| ≤ u * (|X| / C + (2 * |X| + 3) / C) := mul_le_mul_of_nonneg_left h5 hu
  have e2 : u * (|X| / C + (2 * |X| + 3) / C) + 2 * u * (2 * |X| + 3) / C = u * (7 * |X| + 9) / C := by
    field_simp
    ring
  linarith

variable {o : LogOps} {u : ℝ}

theorem ln_error (h : Accurate o u) (hu : 0 ≤ u) (hu2 : u ≤ 1 / 2) {x y : ℝ} (hx : 0 < x) (hy : |y - x| ≤ u * x) :
    |o.ln y - Real.log x| ≤ u * (|Real.log x| + 3) := by
  obtain ⟨hy0, hlog⟩ := log_rel hu hu2 hx hy
  have h1 := h.ln y hy0
  have h2 : |Real.log y| ≤ |Real.log x| + 2 * u := by
    have := abs_add_le (Real.log x) (Real.log y - Real.log x)
    rw [add_sub_cancel] at this
    linarith
  have h3 := abs_sub_le (o.ln y) (Real.log y) (Real.log x)
  have h4 := abs_nonneg (Real.log x)
  nlinarith [mul_le_mul_of_nonneg_left h2 hu]

/-- The computed quotient of the logarithms of `y ≈ x` and `c`. -/
theorem log_quotient (h : Accurate o u) (hu : 0 ≤ u) (hu2 : u ≤ 1 / 2) {x y : ℝ} (hx : 0 < x) (hy : |y - x| ≤ u * x) {c : ℕ} (hc : 2 ≤ c) :
    |o.div (o.ln y) (o.ln c) - Real.logb c x| ≤ u * (7 * |Real.log x| + 9) / Real.log c := by
  have hl := log_base_pos hc
  have hc' : (0 : ℝ) < c := by exact_mod_cast (by omega : 0 < c)
  have h1 := h.ln c hc'
  rw [abs_of_pos (by linarith : 0 < Real.log c)] at h1
  have hne : o.ln (c : ℝ) ≠ 0 := by
    intro h0
    rw [h0, zero_sub, abs_neg, abs_of_pos (by linarith : 0 < Real.log c)] at h1
    nlinarith
  exact quotient_error hu hu2 (by linarith) (ln_error h hu hu2 hx hy) h1 (h.div _ _ hne)

theorem logb_two_le {n B : ℕ} (hn : 0 < n) (h : n ≤ 2 ^ B) : Real.logb 2 n ≤ B ∧ 0 ≤ Real.logb 2 n ∧ Real.log n ≤ B ∧ 0 ≤ Real.log n := by
  have h1 : (1 : ℝ) ≤ n := by exact_mod_cast hn
  have h2 : (n : ℝ) ≤ 2 ^ B := by exact_mod_cast h
  have h3 : Real.log n ≤ B * Real.log 2 := by
    have := Real.log_le_log (by linarith) h2
    rwa [Real.log_pow] at this
  have h4 := Real.log_two_lt_d9
  have h5 := Real.log_two_gt_d9
  have h6 : (0 : ℝ) ≤ B := Nat.cast_nonneg B
  have h7 := Real.log_nonneg h1
  refine ⟨?_, ?_, by nlinarith, h7⟩
  · rw [Real.logb, div_le_iff₀ (by linarith)]
    exact h3
  · exact div_nonneg h7 (by linarith)

end FLog

open FLog

variable {o : LogOps} {u : ℝ}

/-! ### Kernel thinning -/

/-- C72: the number of halvings that kernel thinning computes is the exact one, `⌊log₂ (n / size)⌋`, or `n = size * 2 ^ k` with `k ≥ 1` and it is `k - 1`. -/
theorem C72_halvings (h : Accurate o u) (hu : 0 ≤ u) (hu2 : u ≤ 1 / 16) {n size : ℕ} (h0 : 0 < size) (hs : size ≤ n) (hn : FewRows u n) :
    ktHalvings o n size = (Nat.log 2 (n / size) : ℕ) ∨
      (n = size * 2 ^ Nat.log 2 (n / size) ∧ 1 ≤ Nat.log 2 (n / size) ∧ ktHalvings o n size = ((Nat.log 2 (n / size) - 1 : ℕ) : ℤ)) := by
  obtain ⟨B, hB1, hB, hsmall⟩ := hn
  have : NeZero size := ⟨h0.ne'⟩
  have hn0 : 0 < n := by omega
  have : NeZero n := ⟨hn0.ne'⟩
  have hn' : (1 : ℝ) ≤ n := by exact_mod_cast hn0
  have hs' : (0 : ℝ) < size := by exact_mod_cast h0
  obtain ⟨hd1, hd2⟩ := C19_depth (n := n) (size := size) hs
  obtain ⟨ha1, ha0, -, -⟩ := logb_two_le hn0 hB
  have hb1 : Real.logb 2 size ≤ Real.logb 2 n := Real.logb_le_logb_of_le (by norm_num) hs' (by exact_mod_cast hs)
  obtain ⟨-, hb0, -, -⟩ := logb_two_le h0 (hs.trans hB)
  have hl1 := h.log2 n (by linarith)
  have hl2 := h.log2 size hs'
  rw [abs_of_nonneg ha0] at hl1
  rw [abs_of_nonneg hb0] at hl2
  have hsub := h.sub (o.log2 n) (o.log2 size)
  set a := Real.logb 2 n with ha
  set b := Real.logb 2 size with hb
  have hdiff : |o.log2 n - o.log2 size - (a - b)| ≤ 2 * u * a := by
    have e : o.log2 n - o.log2 size - (a - b) = (o.log2 n - a) - (o.log2 size - b) := by ring
    rw [e]
    have := abs_sub (o.log2 n - a) (o.log2 size - b)
    nlinarith
  have habs : |o.log2 n - o.log2 size| ≤ 2 * a := by
    have := abs_add_le (a - b) (o.log2 n - o.log2 size - (a - b))
    rw [add_sub_cancel, abs_of_nonneg (by linarith : 0 ≤ a - b)] at this
    nlinarith
  have herr : |o.sub (o.log2 n) (o.log2 size) - Real.logb (2 : ℕ) ((n : ℝ) / size)| ≤ 4 * u * B := by
    have e : Real.logb (2 : ℕ) ((n : ℝ) / size) = a - b := by
      push_cast
      rw [Real.logb_div (by linarith) hs'.ne']
    rw [e]
    have h1 := abs_sub_le (o.sub (o.log2 n) (o.log2 size)) (o.log2 n - o.log2 size) (a - b)
    have h2 := mul_le_mul_of_nonneg_left habs hu
    nlinarith [mul_le_mul_of_nonneg_left ha1 hu]
  have hcond : 4 * u * B * (((n : ℝ) + 1) * Real.log (2 : ℕ)) < 1 := by
    push_cast
    have h4 := Real.log_two_lt_d9
    have h5 := Real.log_two_gt_d9
    have h6 : (0 : ℝ) ≤ B := Nat.cast_nonneg B
    have h7 : ((n : ℝ) + 1) * Real.log 2 ≤ 2 * n := by nlinarith
    have h8 : 0 ≤ u * B := by positivity
    nlinarith [mul_le_mul_of_nonneg_left h7 h8, mul_nonneg h8 (by linarith : (0 : ℝ) ≤ n)]
  rcases floor_near (by norm_num : 2 ≤ 2) hn0 h0 hd1 hd2 herr hcond with hf | ⟨hp, hf⟩
  · exact Or.inl hf
  · rcases Nat.eq_zero_or_pos (Nat.log 2 (n / size)) with hz | hz
    · left
      rw [hz] at hp ⊢
      have hns : n = size := by simpa using hp
      unfold ktHalvings
      have : o.sub (o.log2 n) (o.log2 size) = 0 := by
        have := h.sub (o.log2 n) (o.log2 size)
        rw [hns, sub_self, abs_zero, mul_zero, sub_zero] at this
        rw [hns]
        exact abs_eq_zero.1 (le_antisymm this (abs_nonneg _))
      rw [this]
      simp
    · right
      refine ⟨hp, hz, ?_⟩
      unfold ktHalvings
      rw [hf]
      omega

/-- C72: so the number of halvings is never negative and never too large: the clipped dataset `dataset[: size * 2**m]` has all its rows. -/
theorem C72_halvings_fit (h : Accurate o u) (hu : 0 ≤ u) (hu2 : u ≤ 1 / 16) {n size : ℕ} (h0 : 0 < size) (hs : size ≤ n) (hn : FewRows u n) :
    0 ≤ ktHalvings o n size ∧ size * 2 ^ (ktHalvings o n size).toNat ≤ n ∧ n ≤ size * 2 ^ ((ktHalvings o n size).toNat + 1) := by
  have : NeZero size := ⟨h0.ne'⟩
  have : NeZero n := ⟨by omega⟩
  obtain ⟨hd1, hd2⟩ := C19_depth (n := n) (size := size) hs
  rcases C72_halvings h hu hu2 h0 hs hn with he | ⟨hp, hk, he⟩
  · rw [he]
    exact ⟨Int.natCast_nonneg _, hd1, hd2.le⟩
  · rw [he]
    refine ⟨Int.natCast_nonneg _, ?_, ?_⟩
    · rw [Int.toNat_natCast]
      exact (Nat.mul_le_mul_left _ (Nat.pow_le_pow_right (by norm_num) (Nat.sub_le _ _))).trans hd1
    · rw [Int.toNat_natCast, Nat.sub_add_cancel hk]
      exact hp.le

/-- C72: the computed number of halvings meets what is assumed of it in the theorems on kernel thinning and Compress++. -/
theorem C72_kt_contract {X : Type*} (h : Accurate o u) (hu : 0 ≤ u) (hu2 : u ≤ 1 / 16) (N : ℕ) (hN : FewRows u N) (P : KTParams X) (hP : KTContract P) :
    KTContract { P with halvings := fun l size => if l ≤ N then (ktHalvings o l size).toNat else P.halvings l size } where
  choice := hP.choice
  ord := hP.ord
  halvings := fun l size h0 hs => by
    by_cases hl : l ≤ N
    · simp only [hl, if_true]
      refine (C72_halvings_fit h hu hu2 h0 hs ?_).2.1
      obtain ⟨B, hB1, hB2, hB3⟩ := hN
      refine ⟨B, hB1, hl.trans hB2, lt_of_le_of_lt ?_ hB3⟩
      have : (l : ℝ) ≤ N := by exact_mod_cast hl
      gcongr
    · simp only [hl, if_false]
      exact hP.halvings l size h0 hs

/-- C72: where the computed number of halvings is one too small, the candidates of kernel thinning cover exactly the first half of the dataset: no
row of the second half is in any of them. -/
theorem C72_half_unused {X : Type*} {n size k : ℕ} [NeZero n] [NeZero size] (hn : n = size * 2 ^ (k + 1)) (hk : ktHalvings o n size = (k : ℕ))
    (root : ℝ → ℝ) (sk : X → X → ℝ) (c : Ext ℝ) (uu : ℕ → ℝ) (d : Fin n → X) (r : ℕ) :
    (∃ cand ∈ ktPartition (size := size) root sk c uu d (ktHalvings o n size).toNat, ∃ t, cand t = (r : ℤ)) ↔ r < n / 2 := by
  rw [hk, Int.toNat_natCast]
  obtain ⟨-, hp⟩ := C19_partition (size := size) root sk c uu d k
  have hhalf : n / 2 = size * 2 ^ k := by
    rw [hn, pow_succ, ← mul_assoc]
    exact Nat.mul_div_cancel _ (by norm_num)
  have key : (r : ℤ) ∈ (ktPartition (size := size) root sk c uu d k).flatMap List.ofFn ↔ r < n / 2 := by
    rw [hp.mem_iff, hhalf]
    simp
  rw [← key]
  simp only [List.mem_flatMap, List.mem_ofFn]

/-- C72: for sizes that are powers of two the number of halvings is exact; in particular the halvings inside Compress++, from `4 * s` rows to `2 * s`
where `s` is a power of two, halve once. -/
theorem C72_halvings_power (h : ExactAtPowers o) (e k : ℕ) (he : e + k ≤ 1024) : ktHalvings o (2 ^ (e + k)) (2 ^ e) = k := by
  unfold ktHalvings
  push_cast
  rw [h.log2 _ he, h.log2 _ (by omega), h.sub _ _ (by omega) he]
  push_cast
  rw [add_sub_cancel_left]
  exact Int.floor_natCast k

/-! ### Compress++ -/

/-- C72: the level that Compress++ computes is `⌊log₄ n⌋`, or `n` is a power of four and it is one less. -/
theorem C72_power (h : Accurate o u) (hu : 0 ≤ u) (hu2 : u ≤ 1 / 16) {n : ℕ} (h0 : 0 < n) (hn : FewRows u n) :
    cppPower o n = (Nat.log 4 n : ℕ) ∨ (n = 4 ^ Nat.log 4 n ∧ 1 ≤ Nat.log 4 n ∧ cppPower o n = ((Nat.log 4 n - 1 : ℕ) : ℤ)) := by
  obtain ⟨B, hB1, hB, hsmall⟩ := hn
  have hn' : (1 : ℝ) ≤ n := by exact_mod_cast h0
  have hx : |(n : ℝ) - n| ≤ u * n := by rw [sub_self, abs_zero]; positivity
  have herr := log_quotient h hu (by linarith) (by linarith : (0 : ℝ) < n) hx (by norm_num : 2 ≤ 4)
  obtain ⟨-, -, hl1, hl0⟩ := logb_two_le h0 hB
  have hlc := log_base_pos (by norm_num : 2 ≤ 4)
  rw [abs_of_nonneg hl0] at herr
  have herr' : |o.div (o.ln n) (o.ln (4 : ℕ)) - Real.logb (4 : ℕ) ((n : ℝ) / (1 : ℕ))| ≤ u * (7 * Real.log n + 9) / Real.log (4 : ℕ) := by
    rw [Nat.cast_one, div_one]
    exact herr
  have hcond : u * (7 * Real.log n + 9) / Real.log (4 : ℕ) * (((n : ℝ) + 1) * Real.log (4 : ℕ)) < 1 := by
    have e : u * (7 * Real.log n + 9) / Real.log (4 : ℕ) * (((n : ℝ) + 1) * Real.log (4 : ℕ)) = u * (7 * Real.log n + 9) * ((n : ℝ) + 1) := by
      field_simp
    rw [e]
    have hB' : (1 : ℝ) ≤ B := by exact_mod_cast hB1
    have h1 : 7 * Real.log n + 9 ≤ 16 * B := by linarith
    have h2 : u * (7 * Real.log n + 9) ≤ u * (16 * B) := mul_le_mul_of_nonneg_left h1 hu
    calc u * (7 * Real.log n + 9) * ((n : ℝ) + 1) ≤ u * (16 * B) * (2 * n) := mul_le_mul h2 (by linarith) (by linarith) (by positivity)
      _ = 32 * u * B * n := by ring
      _ < 1 := hsmall
  have h1 : 1 * 4 ^ Nat.log 4 n ≤ n := by rw [one_mul]; exact Nat.pow_log_le_self 4 h0.ne'
  have h2 : n < 1 * 4 ^ (Nat.log 4 n + 1) := by rw [one_mul]; exact Nat.lt_pow_succ_log_self (by norm_num) n
  have hfl := floor_near (by norm_num : 2 ≤ 4) h0 one_pos h1 h2 herr' hcond
  rw [one_mul] at hfl
  rw [show o.ln ((4 : ℕ) : ℝ) = o.ln 4 by norm_num] at hfl
  unfold cppPower
  rcases hfl with hf | ⟨hp, hf⟩
  · exact Or.inl hf
  · rcases Nat.eq_zero_or_pos (Nat.log 4 n) with hz | hz
    · left
      rw [hz] at hp
      have hn1 : n = 1 := by simpa using hp
      subst hn1
      have e1 : o.ln ((1 : ℕ) : ℝ) = 0 := by
        have := h.ln ((1 : ℕ) : ℝ) (by norm_num)
        rw [Nat.cast_one, Real.log_one, abs_zero, mul_zero, sub_zero] at this
        rw [Nat.cast_one]
        exact abs_eq_zero.1 (le_antisymm this (abs_nonneg _))
      have e2 : o.ln 4 ≠ 0 := by
        intro h0
        have := h.ln 4 (by norm_num)
        have hl4 : 0 < Real.log 4 := Real.log_pos (by norm_num)
        rw [h0, zero_sub, abs_neg, abs_of_pos hl4] at this
        nlinarith
      have e3 : o.div (o.ln ((1 : ℕ) : ℝ)) (o.ln 4) = 0 := by
        have := h.div (o.ln ((1 : ℕ) : ℝ)) (o.ln 4) e2
        rw [e1, zero_div, abs_zero, mul_zero, sub_zero] at this
        rw [e1]
        exact abs_eq_zero.1 (le_antisymm this (abs_nonneg _))
      rw [e3]
      simp
    · right
      refine ⟨hp, hz, ?_⟩
      rw [hf]
      omega

/-- C72: at the computed level Compress++ returns `size` distinct valid rows, or refuses; the largest admissible size is `2**g * 2**p` for the
computed level `p`, which is half of what it should be where the level is one too small. -/
theorem C72_compress {X : Type*} [Zero X] (h : Accurate o u) (hu : 0 ≤ u) (hu2 : u ≤ 1 / 16) {n size : ℕ} [NeZero n] [NeZero size] (hn : FewRows u n) (P : KTParams X)
    (hP : KTContract P) (g : ℤ) (clip : ∀ l : ℕ, Choice n l ℝ) (hclip : ∀ l, ChoiceContract (clip l)) (dataset : Data n X ℝ) (hw : ∀ i, 0 < dataset.weights i) (hs : size ≤ n) :
    0 ≤ cppPower o n ∧ 4 ^ (cppPower o n).toNat ≤ n ∧ n ≤ 4 ^ ((cppPower o n).toNat + 1) ∧
      ((0 ≤ g ∧ g ≤ cppPower o n ∧ size ≤ 2 ^ g.toNat * 2 ^ (cppPower o n).toNat) →
        ∃ f : Fin size → Fin n, Function.Injective f ∧ compressPlusPlusAt (size := size) (cppPower o n).toNat P g clip dataset = .ok (fun t => ((f t : ℕ) : ℤ))) ∧
      (¬ (0 ≤ g ∧ g ≤ cppPower o n ∧ size ≤ 2 ^ g.toNat * 2 ^ (cppPower o n).toNat) →
        compressPlusPlusAt (size := size) (cppPower o n).toNat P g clip dataset = .error .valueError) := by
  obtain ⟨p, hp, hp1, hp2⟩ : ∃ p : ℕ, cppPower o n = p ∧ 4 ^ p ≤ n ∧ n ≤ 4 ^ (p + 1) := by
    have h1 : 4 ^ Nat.log 4 n ≤ n := Nat.pow_log_le_self 4 (NeZero.ne n)
    have h2 : n < 4 ^ (Nat.log 4 n + 1) := Nat.lt_pow_succ_log_self (by norm_num) n
    rcases C72_power h hu hu2 (NeZero.pos n) hn with he | ⟨hpw, hk, he⟩
    · exact ⟨_, he, h1, h2.le⟩
    · refine ⟨_, he, (Nat.pow_le_pow_right (by norm_num) (Nat.sub_le _ _)).trans h1, ?_⟩
      rw [Nat.sub_add_cancel hk]
      exact hpw.le
  rw [hp, Int.toNat_natCast]
  refine ⟨Int.natCast_nonneg _, hp1, hp2, fun hg => C21_valid_at P hP g clip hclip dataset hw hs hg.1 p hp1 hg.2.1 hg.2.2, fun hg => C21_error_at P g clip dataset p ?_⟩
  by_contra hcon
  push Not at hcon
  exact hg ⟨hcon.2.1, hcon.2.2.1, hcon.2.2.2⟩

/-! ### MapReduce -/

/-- C72: the number of leaves of `_jit_tree` is the exact one. -/
theorem C72_leaves (h : Accurate o u) (hx : ExactAtPowers o) (hu : 0 ≤ u) (hu2 : u ≤ 1 / 16) {n leaf : ℕ} (h2 : 2 ≤ n) (hn : FewRows u n) (hn2 : Nat.log 2 n ≤ 1024) :
    jitLeaves o n leaf = nLeaves n leaf := by
  obtain ⟨B, hB1, hB, hsmall⟩ := hn
  have hq : 0 < halfLeaf leaf := lt_of_lt_of_le one_pos (le_max_left _ _)
  have hp : 0 < n - 1 := by omega
  obtain ⟨q, hqd⟩ : ∃ q, q = halfLeaf leaf := ⟨_, rfl⟩
  obtain ⟨p, hpd⟩ : ∃ p, p = n - 1 := ⟨_, rfl⟩
  unfold jitLeaves nLeaves
  rw [← hqd] at hq ⊢
  rw [← hpd] at hp ⊢
  congr 1
  have hp' : (1 : ℝ) ≤ p := by exact_mod_cast hp
  have hq' : (1 : ℝ) ≤ q := by exact_mod_cast hq
  have hxp : 0 < (p : ℝ) / q := by positivity
  have hd := h.div p q (by linarith)
  rw [abs_of_pos hxp] at hd
  obtain ⟨hy0, hylog⟩ := log_rel hu (by linarith) hxp hd
  have hl2 := Real.log_two_gt_d9
  have hyb : |Real.logb 2 (o.div p q) - Real.logb 2 ((p : ℝ) / q)| ≤ 3 * u := by
    rw [Real.logb, Real.logb, ← sub_div, abs_div, abs_of_pos (by linarith : 0 < Real.log 2), div_le_iff₀ (by linarith)]
    nlinarith
  have hlg := h.log2 _ hy0
  have herr : |o.log2 (o.div p q) - Real.logb 2 ((p : ℝ) / q)| ≤ u * (|Real.logb 2 ((p : ℝ) / q)| + 4) := by
    have h1 := abs_sub_le (o.log2 (o.div p q)) (Real.logb 2 (o.div p q)) (Real.logb 2 ((p : ℝ) / q))
    have h3 := abs_add_le (Real.logb 2 ((p : ℝ) / q)) (Real.logb 2 (o.div p q) - Real.logb 2 ((p : ℝ) / q))
    rw [add_sub_cancel] at h3
    nlinarith [mul_le_mul_of_nonneg_left (h3.trans (add_le_add_right hyb _)) hu]
  by_cases hlt : p < q
  · rw [Nat.div_eq_of_lt hlt, Nat.log_zero_right]
    have hneg : Real.logb 2 ((p : ℝ) / q) ≤ 0 := by
      refine Real.logb_nonpos (by norm_num) hxp.le ?_
      rw [div_le_one (by linarith)]
      exact_mod_cast hlt.le
    have hL : o.log2 (o.div p q) < 1 := by
      have := (abs_le.1 herr).2
      rw [abs_of_nonpos hneg] at this
      nlinarith
    have : ⌊o.log2 (o.div p q)⌋ < 1 := by
      rw [Int.floor_lt]
      exact_mod_cast hL
    omega
  push Not at hlt
  have : NeZero q := ⟨hq.ne'⟩
  have : NeZero p := ⟨hp.ne'⟩
  obtain ⟨hd1, hd2⟩ := C19_depth (n := p) (size := q) hlt
  have hge : 0 ≤ Real.logb 2 ((p : ℝ) / q) := by
    refine Real.logb_nonneg (by norm_num) ?_
    rw [le_div_iff₀ (by linarith)]
    rw [one_mul]
    exact_mod_cast hlt
  rw [abs_of_nonneg hge] at herr
  have hle : Real.logb 2 ((p : ℝ) / q) ≤ B := by
    refine le_trans (Real.logb_le_logb_of_le (by norm_num) hxp ?_) (logb_two_le hp (by omega : p ≤ 2 ^ B)).1
    exact div_le_self (by linarith) hq'
  have hnp : (n : ℝ) = p + 1 := by
    have : n = p + 1 := by omega
    rw [this]; push_cast; ring
  have hcond : u * (Real.logb 2 ((p : ℝ) / q) + 4) * (((p : ℝ) + 1) * Real.log (2 : ℕ)) < 1 := by
    have hB' : (1 : ℝ) ≤ B := by exact_mod_cast hB1
    have h4 := Real.log_two_lt_d9
    push_cast
    rw [← hnp]
    have hn0 : (0 : ℝ) ≤ n := by linarith
    calc u * (Real.logb 2 ((p : ℝ) / q) + 4) * ((n : ℝ) * Real.log 2) ≤ u * (32 * B) * (n * 1) := by
          refine mul_le_mul (mul_le_mul_of_nonneg_left (by linarith) hu) (mul_le_mul_of_nonneg_left (by linarith) hn0) (by positivity) (by positivity)
      _ = 32 * u * B * n := by ring
      _ < 1 := hsmall
  have hfl : ⌊o.log2 (o.div p q)⌋ = (Nat.log 2 (p / q) : ℕ) := by
    rcases floor_near (by norm_num : 2 ≤ 2) hp hq hd1 hd2 (by push_cast; exact herr) hcond with hf | ⟨hpow, -⟩
    · exact hf
    · have he : (p : ℝ) = q * 2 ^ Nat.log 2 (p / q) := by exact_mod_cast hpow
      have hle' : Nat.log 2 (p / q) ≤ 1024 := by
        exact (Nat.log_mono_right ((Nat.div_le_self _ _).trans (by omega : p ≤ n))).trans hn2
      have : o.div (p : ℝ) q = 2 ^ Nat.log 2 (p / q) := by
        conv_lhs => rw [he]
        exact hx.div _ _ (by linarith)
      rw [this, hx.log2 _ hle']
      exact Int.floor_natCast _
  rw [hfl]
  simp

/-! ### Tree recombination -/

/-- C72: the depth that tree recombination computes is the exact one, or `n = m * c ^ k` and there is one level more than needed. It is at least one
and always large enough for the padded tree to hold all nodes. -/
theorem C72_tree_depth (h : Accurate o u) (hu : 0 ≤ u) (hu2 : u ≤ 1 / 32) {n m c : ℕ} (h0 : 0 < n) (hm : 0 < m) (hc : 2 ≤ c) (hn : FewRows u n) :
    (treeDepthFl o n m c = treeDepth n m c ∨ (n = m * c ^ treeDepth n m c ∧ treeDepthFl o n m c = treeDepth n m c + 1)) ∧
      1 ≤ treeDepthFl o n m c ∧ n ≤ m * c ^ treeDepthFl o n m c := by
  have key : treeDepthFl o n m c = treeDepth n m c ∨ (n = m * c ^ treeDepth n m c ∧ treeDepthFl o n m c = treeDepth n m c + 1) := by
    obtain ⟨B, hB1, hB, hsmall⟩ := hn
    have hn' : (1 : ℝ) ≤ n := by exact_mod_cast h0
    have hm' : (1 : ℝ) ≤ m := by exact_mod_cast hm
    have hxp : 0 < (n : ℝ) / m := by positivity
    have hd := h.div n m (by linarith)
    rw [abs_of_pos hxp] at hd
    have herr := log_quotient h hu (by linarith) hxp hd hc
    have hlc := log_base_pos hc
    by_cases hle : n ≤ m
    · left
      have hX : Real.log ((n : ℝ) / m) ≤ 0 := by
        refine Real.log_nonpos hxp.le ?_
        rw [div_le_one (by linarith)]
        exact_mod_cast hle
      have hL : o.div (o.ln (o.div n m)) (o.ln c) ≤ 1 := by
        have h1 := (abs_le.1 herr).2
        rw [abs_of_nonpos hX, Real.logb, sub_le_iff_le_add, ← add_div] at h1
        refine h1.trans ?_
        rw [div_le_one (by linarith)]
        nlinarith
      have hceil : ⌈o.div (o.ln (o.div n m)) (o.ln c)⌉ ≤ 1 := by
        rw [Int.ceil_le]
        exact_mod_cast hL
      have hdepth : treeDepth n m c = 1 := by
        unfold treeDepth
        have : (n + m - 1) / m ≤ 1 := by
          rw [Nat.div_le_iff_le_mul_add_pred hm]
          omega
        rw [Nat.clog_of_right_le_one this]
        rfl
      unfold treeDepthFl
      omega
    · push Not at hle
      -- the exact depth
      obtain ⟨e, he⟩ : ∃ e, e = Nat.clog c ((n + m - 1) / m) - 1 := ⟨_, rfl⟩
      have hgt : 1 < (n + m - 1) / m := by
        rw [Nat.lt_div_iff_mul_lt hm]
        omega
      have hcl : 0 < Nat.clog c ((n + m - 1) / m) := Nat.clog_pos (by omega) hgt
      have hdepth : treeDepth n m c = e + 1 := by
        unfold treeDepth
        omega
      have h1 : m * c ^ e < n := by
        have : c ^ e < (n + m - 1) / m := by
          rw [← Nat.lt_clog_iff_pow_lt (by omega)]
          omega
        rw [Nat.lt_div_iff_mul_lt hm] at this
        rw [mul_comm]
        omega
      have h2 : n ≤ m * c ^ (e + 1) := by
        have := le_tree_cells (n := n) hm (by omega : 1 < c)
        rwa [hdepth] at this
      have hX0 : 0 ≤ Real.log ((n : ℝ) / m) := by
        refine Real.log_nonneg ?_
        rw [le_div_iff₀ (by linarith), one_mul]
        exact_mod_cast hle.le
      have hXB : Real.log ((n : ℝ) / m) ≤ B :=
        (Real.log_le_log hxp (div_le_self (by linarith) hm')).trans (logb_two_le h0 hB).2.2.1
      rw [abs_of_nonneg hX0] at herr
      have hcond : u * (7 * Real.log ((n : ℝ) / m) + 9) / Real.log c * (((n : ℝ) + 1) * Real.log c) < 1 := by
        have e : u * (7 * Real.log ((n : ℝ) / m) + 9) / Real.log c * (((n : ℝ) + 1) * Real.log c) = u * (7 * Real.log ((n : ℝ) / m) + 9) * ((n : ℝ) + 1) := by
          field_simp
        rw [e]
        have hB' : (1 : ℝ) ≤ B := by exact_mod_cast hB1
        have h2 : u * (7 * Real.log ((n : ℝ) / m) + 9) ≤ u * (16 * B) := mul_le_mul_of_nonneg_left (by linarith) hu
        calc u * (7 * Real.log ((n : ℝ) / m) + 9) * ((n : ℝ) + 1) ≤ u * (16 * B) * (2 * n) := mul_le_mul h2 (by linarith) (by linarith) (by positivity)
          _ = 32 * u * B * n := by ring
          _ < 1 := hsmall
      rw [hdepth]
      unfold treeDepthFl
      rcases ceil_near hc hm h1 h2 herr hcond with hf | ⟨hp, hf⟩
      · left
        rw [hf]
        omega
      · right
        refine ⟨hp, ?_⟩
        rw [hf]
        omega
  refine ⟨key, ?_⟩
  have hpos := treeDepth_pos n m c
  have hle := le_tree_cells (n := n) hm (by omega : 1 < c)
  rcases key with hk | ⟨-, hk⟩
  · rw [hk]
    exact ⟨hpos, hle⟩
  · rw [hk]
    exact ⟨by omega, hle.trans (Nat.mul_le_mul_left _ (Nat.pow_le_pow_right (by omega) (by omega)))⟩

/-- C72: so tree recombination with the computed depth has all properties of C24, C25 and C27, with or without the extra level. -/
theorem C72_tree {K : Type*} [Field K] [LinearOrder K] [IsStrictOrderedRing K] (h : Accurate o u) (hu : 0 ≤ u) (hu2 : u ≤ 1 / 32) {X : Type*} {n m : ℕ} [NeZero n]
    (hn : FewRows u n) (big : K) (null : NullResolver K) (hnull : ∀ n m (nodes : Fin n → Fin m → K),
      NullBasis nodes (null n m nodes).1 (null n m nodes).2) (test : X → Fin m → K) (mode : RecombMode) (c : ℕ) [NeZero c]
    (hc : 1 < c) (d : Data n X K) (hw : ∀ t, 0 ≤ d.weights t) (hpos : ∃ t, 0 < d.weights t) :
    ∃ (k : ℕ) (out : Data k ℤ K), treeReduceFl o big null test mode c d = some ⟨k, out⟩ ∧ (∀ t, 0 ≤ out.weights t) ∧
      ∑ t, out.weights t = 1 ∧
      (∀ l, ∑ t, out.weights t * test (d.data (gatherIdx n (out.data t))) l
        = (∑ t, d.weights t * test (d.data t) l) / ∑ t, d.weights t) ∧
      (supportRows out).Nodup ∧ (supportRows out).length ≤ min n (m + 1) ∧
      (∀ r ∈ supportRows out, ∃ i : Fin n, r = ((i : ℕ) : ℤ) ∧ 0 < d.weights i) ∧
      IndepOn (fun i => augment (test (d.data i))) (fun i : Fin n => ((i : ℕ) : ℤ) ∈ supportRows out) := by
  obtain ⟨-, h1, h2⟩ := C72_tree_depth h hu hu2 (NeZero.pos n) (by omega : 0 < m + 1) (by omega : 2 ≤ c) hn
  exact C27_tree_at big null hnull test mode c hc _ h1 h2 d hw hpos

end Coreax
