import Verif.Props.FloatLog
import Verif.Props.ThinningCases
import Verif.Props.RecombinationCases
import Mathlib.Analysis.SpecialFunctions.Log.Deriv

/-!
# Logarithms computed in floating point: cases

Operations that meet the contracts of `Props/FloatLog.lean`, and certified values of correctly rounded double-precision logarithms at which the solvers compute
a number of halvings that is one too small and a tree depth that is one too large.
-/

set_option linter.unusedSectionVars false

namespace Coreax

open Spec

/-- The exact operations followed by a rounding. -/
noncomputable def roundedLogOps (rd : ℝ → ℝ) : LogOps where
  sub a b := rd (a - b)
  div a b := rd (a / b)
  log2 a := rd (Real.logb 2 a)
  ln a := rd (Real.log a)

/-- Correct rounding to 53 significant binary digits: double precision (without overflow and underflow). -/
noncomputable def doubleOps : LogOps := roundedLogOps (binaryRound 52)

theorem roundedLogOps_accurate {u : ℝ} {rd : ℝ → ℝ} (h : ∀ a, |rd a - a| ≤ u * |a|) : Accurate (roundedLogOps rd) u where
  sub _ _ := h _
  div _ _ _ := h _
  log2 _ _ := h _
  ln _ _ := h _

theorem doubleOps_accurate : Accurate doubleOps ((1 / 2) ^ 53) := roundedLogOps_accurate (binaryRound_error 52)

/-- Rounding does nothing to a number that is an integer after the scaling. -/
theorem binaryRound_of_int (p : ℕ) (a : ℝ) (e : ℤ) (k : ℤ) (h1 : (2 : ℝ) ^ e ≤ |a|) (h2 : |a| < 2 ^ (e + 1)) (hk : a * 2 ^ ((p : ℤ) - e) = k) : binaryRound p a = a := by
  have ha : 0 < |a| := lt_of_lt_of_le (by positivity) h1
  have he : Int.log 2 |a| = e := by
    apply le_antisymm
    · have := (Int.lt_zpow_iff_log_lt (b := 2) (by norm_num) ha).1 (by exact_mod_cast h2)
      omega
    · exact (Int.zpow_le_iff_le_log (b := 2) (by norm_num) ha).1 (by exact_mod_cast h1)
  unfold binaryRound
  rw [he, hk, round_intCast, ← hk, mul_div_cancel_right₀]
  positivity

/-- The rounding of a number whose scaled value is near an integer. -/
theorem binaryRound_eq (p : ℕ) (a : ℝ) (e : ℤ) (k : ℤ) (h1 : (2 : ℝ) ^ e ≤ |a|) (h2 : |a| < 2 ^ (e + 1)) (hk : |a * 2 ^ ((p : ℤ) - e) - k| < 1 / 2) :
    binaryRound p a = k / 2 ^ ((p : ℤ) - e) := by
  have ha : 0 < |a| := lt_of_lt_of_le (by positivity) h1
  have he : Int.log 2 |a| = e := by
    apply le_antisymm
    · have := (Int.lt_zpow_iff_log_lt (b := 2) (by norm_num) ha).1 (by exact_mod_cast h2)
      omega
    · exact (Int.zpow_le_iff_le_log (b := 2) (by norm_num) ha).1 (by exact_mod_cast h1)
  have hr : round (a * 2 ^ ((p : ℤ) - e)) = k := by
    rw [round_eq, Int.floor_eq_iff]
    obtain ⟨h3, h4⟩ := abs_lt.1 hk
    exact ⟨by linarith, by linarith⟩
  unfold binaryRound
  rw [he, hr]

theorem binaryRound_natCast (p k : ℕ) (hk : k < 2 ^ (p + 1)) : binaryRound p (k : ℝ) = k := by
  rcases Nat.eq_zero_or_pos k with rfl | h0
  · simp [binaryRound]
  have hlog : Nat.log 2 k ≤ p := Nat.lt_succ_iff.1 (Nat.log_lt_of_lt_pow h0.ne' hk)
  refine binaryRound_of_int p k (Nat.log 2 k : ℕ) ((k * 2 ^ (p - Nat.log 2 k) : ℕ) : ℤ) ?_ ?_ ?_
  · rw [Nat.abs_cast, zpow_natCast]
    exact_mod_cast Nat.pow_log_le_self 2 h0.ne'
  · rw [Nat.abs_cast]
    exact_mod_cast Nat.lt_pow_succ_log_self (by norm_num) k
  · rw [← Nat.cast_sub hlog, zpow_natCast]
    push_cast
    ring

theorem binaryRound_two_pow (p e : ℕ) : binaryRound p ((2 : ℝ) ^ e) = 2 ^ e := by
  have habs : |(2 : ℝ) ^ e| = 2 ^ e := abs_of_pos (by positivity)
  refine binaryRound_of_int p _ (e : ℤ) ((2 ^ p : ℕ) : ℤ) ?_ ?_ ?_
  · rw [habs, zpow_natCast]
  · rw [habs, ← zpow_natCast]
    exact zpow_lt_zpow_right₀ (by norm_num) (by omega)
  · rw [← zpow_natCast, ← zpow_add₀ (by norm_num)]
    simp

theorem doubleOps_exact : ExactAtPowers doubleOps where
  log2 e he := by
    change binaryRound 52 (Real.logb 2 (2 ^ e)) = e
    rw [Real.logb_pow, Real.logb_self_eq_one (by norm_num), mul_one]
    exact binaryRound_natCast 52 e (by omega)
  div a e ha := by
    change binaryRound 52 (a * 2 ^ e / a) = 2 ^ e
    rw [mul_div_cancel_left₀ _ ha]
    exact binaryRound_two_pow 52 e
  sub a b hba ha := by
    change binaryRound 52 ((a : ℝ) - b) = a - b
    rw [← Nat.cast_sub hba]
    exact binaryRound_natCast 52 _ (by omega)

/-- Datasets of up to `2 ^ 40` rows are few enough in double precision. -/
theorem few_rows_double {n : ℕ} (h : n ≤ 2 ^ 40) : FewRows ((1 / 2) ^ 53) n := by
  refine ⟨40, by norm_num, h, ?_⟩
  have hn : (n : ℝ) ≤ 1099511627776 := by exact_mod_cast (by simpa using h : n ≤ 1099511627776)
  norm_num
  linarith

/-! ### Certified bounds on logarithms -/

/-- Partial sums of the series of `-log (1 - x)`. -/
def logSum (x : ℚ) : ℕ → ℚ
  | 0 => 0
  | n + 1 => logSum x n + x ^ (n + 1) / (n + 1)

theorem logSum_eq (x : ℚ) (n : ℕ) : ((logSum x n : ℚ) : ℝ) = ∑ i ∈ Finset.range n, (x : ℝ) ^ (i + 1) / (i + 1) := by
  induction n with
  | zero => simp [logSum]
  | succ n ih =>
    rw [Finset.sum_range_succ, ← ih]
    simp [logSum]

theorem log_bounds (x : ℚ) (hx0 : 0 ≤ x) (hx1 : x < 1) (n : ℕ) (lo hi : ℚ) (h1 : lo ≤ logSum x n - x ^ (n + 1) / (1 - x)) (h2 : logSum x n + x ^ (n + 1) / (1 - x) ≤ hi) :
    (lo : ℝ) ≤ -Real.log (1 - x) ∧ -Real.log (1 - x) ≤ (hi : ℝ) := by
  have hx0' : (0 : ℝ) ≤ x := by exact_mod_cast hx0
  have habs : |(x : ℝ)| = x := abs_of_nonneg hx0'
  have h := Real.abs_log_sub_add_sum_range_le (x := (x : ℝ)) (by rw [habs]; exact_mod_cast hx1) n
  rw [← logSum_eq, habs] at h
  obtain ⟨h3, h4⟩ := abs_le.1 h
  have h1' : (lo : ℝ) ≤ ((logSum x n : ℚ) : ℝ) - (x : ℝ) ^ (n + 1) / (1 - x) := by exact_mod_cast h1
  have h2' : ((logSum x n : ℚ) : ℝ) + (x : ℝ) ^ (n + 1) / (1 - x) ≤ (hi : ℝ) := by exact_mod_cast h2
  exact ⟨by linarith, by linarith⟩

theorem log_two_bounds : (51145234580810622639 / 2 ^ 66 : ℝ) ≤ Real.log 2 ∧ Real.log 2 ≤ 51145234580810622640 / 2 ^ 66 := by
  have h := log_bounds (1 / 2) (by norm_num) (by norm_num) 72 (51145234580810622639 / 2 ^ 66) (51145234580810622640 / 2 ^ 66) (by decide +kernel) (by decide +kernel)
  have e : -Real.log (1 - ((1 / 2 : ℚ) : ℝ)) = Real.log 2 := by
    rw [← Real.log_inv]
    norm_num
  rw [e] at h
  push_cast at h
  exact h

theorem log_sixteen_thirteenths : (15321080886767590265 / 2 ^ 66 : ℝ) ≤ 4 * Real.log 2 - Real.log 13 ∧ 4 * Real.log 2 - Real.log 13 ≤ 15321080886767590266 / 2 ^ 66 := by
  have h := log_bounds (3 / 16) (by norm_num) (by norm_num) 32 (15321080886767590265 / 2 ^ 66) (15321080886767590266 / 2 ^ 66) (by decide +kernel) (by decide +kernel)
  have e : -Real.log (1 - ((3 / 16 : ℚ) : ℝ)) = 4 * Real.log 2 - Real.log 13 := by
    rw [show (1 : ℝ) - ((3 / 16 : ℚ) : ℝ) = 13 / 2 ^ 4 by push_cast; norm_num, Real.log_div (by norm_num) (by norm_num), Real.log_pow]
    push_cast
    ring
  rw [e] at h
  push_cast at h
  exact h

theorem log_five_bounds : ((118755557092788853439) / 2 ^ 66 : ℝ) ≤ Real.log 5 ∧ Real.log 5 ≤ (118755557092788853442) / 2 ^ 66 := by
  have h := log_bounds (1 / 5) (by norm_num) (by norm_num) 34 (16465087931167608161 / 2 ^ 66) (16465087931167608162 / 2 ^ 66) (by decide +kernel) (by decide +kernel)
  have e : -Real.log (1 - ((1 / 5 : ℚ) : ℝ)) = Real.log 5 - 2 * Real.log 2 := by
    rw [show (1 : ℝ) - ((1 / 5 : ℚ) : ℝ) = 2 ^ 2 / 5 by push_cast; norm_num, Real.log_div (by norm_num) (by norm_num), Real.log_pow]
    push_cast
    ring
  rw [e] at h
  push_cast at h
  obtain ⟨h1, h2⟩ := h
  obtain ⟨h3, h4⟩ := log_two_bounds
  constructor <;> linarith

/-- `math.log2(13)` in double precision. -/
theorem log2_thirteen : doubleOps.log2 (13 : ℕ) = 8332649467863603 / 2 ^ 51 := by
  obtain ⟨h1, h2⟩ := log_two_bounds
  obtain ⟨h3, h4⟩ := log_sixteen_thirteenths
  have hl : 0 < Real.log 2 := by linarith
  have hb1 : (8332649467863603 - 1 / 4) / 2 ^ 51 < Real.logb 2 13 := by
    rw [Real.logb, lt_div_iff₀ hl]
    linarith
  have hb2 : Real.logb 2 13 < (8332649467863603 + 1 / 4) / 2 ^ 51 := by
    rw [Real.logb, div_lt_iff₀ hl]
    linarith
  change binaryRound 52 (Real.logb 2 ((13 : ℕ) : ℝ)) = _
  push_cast
  rw [binaryRound_eq 52 _ 1 8332649467863603]
  · norm_num
  · rw [abs_of_pos (by linarith)]
    norm_num at hb1 ⊢
    linarith
  · rw [abs_of_pos (by linarith)]
    norm_num at hb2 ⊢
    linarith
  · norm_num at hb1 hb2 ⊢
    rw [abs_lt]
    constructor <;> linarith

/-- `math.log2(26)` in double precision. -/
theorem log2_twenty_six : doubleOps.log2 (26 : ℕ) = 5292224640774425 / 2 ^ 50 := by
  obtain ⟨h1, h2⟩ := log_two_bounds
  obtain ⟨h3, h4⟩ := log_sixteen_thirteenths
  have hl : 0 < Real.log 2 := by linarith
  have e : Real.logb 2 26 = (Real.log 13 + Real.log 2) / Real.log 2 := by
    rw [Real.logb, show (26 : ℝ) = 13 * 2 by norm_num, Real.log_mul (by norm_num) (by norm_num)]
  have hb1 : (5292224640774425 - 49 / 100) / 2 ^ 50 < Real.logb 2 26 := by
    rw [e, lt_div_iff₀ hl]
    linarith
  have hb2 : Real.logb 2 26 < (5292224640774425 + 49 / 100) / 2 ^ 50 := by
    rw [e, div_lt_iff₀ hl]
    linarith
  change binaryRound 52 (Real.logb 2 ((26 : ℕ) : ℝ)) = _
  push_cast
  rw [binaryRound_eq 52 _ 2 5292224640774425]
  · norm_num
  · rw [abs_of_pos (by linarith)]
    norm_num at hb1 ⊢
    linarith
  · rw [abs_of_pos (by linarith)]
    norm_num at hb2 ⊢
    linarith
  · norm_num at hb1 hb2 ⊢
    rw [abs_lt]
    constructor <;> linarith

/-- C72: with all operations correctly rounded to double precision, kernel thinning of 26 rows to 13 computes no halving, although one fits. -/
theorem C72_thirteen : ktHalvings doubleOps 26 13 = 0 ∧ Nat.log 2 (26 / 13) = 1 := by
  refine ⟨?_, by decide⟩
  unfold ktHalvings
  rw [log2_twenty_six, log2_thirteen]
  have e : (5292224640774425 / 2 ^ 50 - 8332649467863603 / 2 ^ 51 : ℝ) = 2251799813685247 / 2251799813685248 := by norm_num
  have hr : doubleOps.sub (5292224640774425 / 2 ^ 50) (8332649467863603 / 2 ^ 51) = 2251799813685247 / 2251799813685248 := by
    change binaryRound 52 (5292224640774425 / 2 ^ 50 - 8332649467863603 / 2 ^ 51) = _
    rw [e]
    refine binaryRound_of_int 52 _ (-1) (4 * 2251799813685247) ?_ ?_ ?_
    · rw [abs_of_pos (by norm_num)]; norm_num
    · rw [abs_of_pos (by norm_num)]; norm_num
    · norm_num
  rw [hr, Int.floor_eq_iff]
  constructor <;> norm_num

/-- So no row from the fourteenth on is in a candidate of the partition. -/
theorem C72_thirteen_unused {X : Type*} (root : ℝ → ℝ) (sk : X → X → ℝ) (c : Ext ℝ) (uu : ℕ → ℝ) (d : Fin 26 → X) (r : ℕ) (hr : 13 ≤ r) :
    ¬ ∃ cand ∈ ktPartition (size := 13) root sk c uu d (ktHalvings doubleOps 26 13).toNat, ∃ t, cand t = (r : ℤ) := by
  rw [C72_half_unused (k := 0) (by norm_num) (by rw [C72_thirteen.1]; rfl)]
  omega

theorem ln_five : doubleOps.ln (5 : ℕ) = 7248263982714163 / 2 ^ 52 := by
  obtain ⟨h1, h2⟩ := log_five_bounds
  change binaryRound 52 (Real.log ((5 : ℕ) : ℝ)) = _
  push_cast
  rw [binaryRound_eq 52 _ 0 7248263982714163]
  · norm_num
  · rw [abs_of_pos (by linarith)]
    norm_num at h1 ⊢
    linarith
  · rw [abs_of_pos (by linarith)]
    norm_num at h2 ⊢
    linarith
  · norm_num at h1 h2 ⊢
    rw [abs_lt]
    constructor <;> linarith

theorem ln_hundred_twenty_five : doubleOps.ln 125 = 5436197987035623 / 2 ^ 50 := by
  obtain ⟨h1, h2⟩ := log_five_bounds
  change binaryRound 52 (Real.log 125) = _
  rw [show (125 : ℝ) = 5 ^ 3 by norm_num, Real.log_pow]
  push_cast
  rw [binaryRound_eq 52 _ 2 5436197987035623]
  · norm_num
  · rw [abs_of_pos (by linarith)]
    norm_num at h1 ⊢
    linarith
  · rw [abs_of_pos (by linarith)]
    norm_num at h2 ⊢
    linarith
  · norm_num at h1 h2 ⊢
    rw [abs_lt]
    constructor <;> linarith

/-- C72: with all operations correctly rounded to double precision, the tree for 250 nodes, two test functions (with the constant one) and the factor five has
four levels and a padding of 1000, although three levels and no padding suffice. -/
theorem C72_extra_level : treeDepthFl doubleOps 250 2 5 = 4 ∧ treeDepth 250 2 5 = 3 ∧ 2 * 5 ^ 3 = 250 := by
  refine ⟨?_, by decide +kernel, by norm_num⟩
  have e1 : doubleOps.div ((250 : ℕ) : ℝ) ((2 : ℕ) : ℝ) = 125 := by
    change binaryRound 52 (((250 : ℕ) : ℝ) / ((2 : ℕ) : ℝ)) = 125
    have := binaryRound_natCast 52 125 (by norm_num)
    push_cast at this ⊢
    norm_num at this ⊢
    exact this
  have e2 : doubleOps.div (5436197987035623 / 2 ^ 50) (7248263982714163 / 2 ^ 52) = 3 + 1 / 2 ^ 51 := by
    change binaryRound 52 (5436197987035623 / 2 ^ 50 / (7248263982714163 / 2 ^ 52)) = _
    rw [binaryRound_eq 52 _ 1 (3 * 2 ^ 51 + 1)]
    · norm_num
    · rw [abs_of_pos (by norm_num)]; norm_num
    · rw [abs_of_pos (by norm_num)]; norm_num
    · norm_num [abs_lt]
  unfold treeDepthFl
  rw [e1, ln_hundred_twenty_five, ln_five, e2]
  have : ⌈(3 + 1 / 2 ^ 51 : ℝ)⌉ = 4 := by
    rw [Int.ceil_eq_iff]
    constructor <;> norm_num
  rw [this]
  rfl

/-! ### The hypotheses of the theorems hold -/

/-- Kernel thinning of a million rows to a thousand. -/
example : 0 ≤ ktHalvings doubleOps 1000000 1000 ∧ ktHalvings doubleOps 1000000 1000 = 9 := by
  have h := C72_halvings doubleOps_accurate (by positivity) (by norm_num) (n := 1000000) (size := 1000) (by norm_num) (by norm_num) (few_rows_double (by norm_num))
  have hl : Nat.log 2 (1000000 / 1000) = 9 := by decide +kernel
  rw [hl] at h
  rcases h with h | ⟨h, -⟩
  · rw [h]; decide
  · norm_num at h

example : 0 ≤ ktHalvings doubleOps 28 7 ∧ 7 * 2 ^ (ktHalvings doubleOps 28 7).toNat ≤ 28 :=
  have h := C72_halvings_fit doubleOps_accurate (by positivity) (by norm_num) (n := 28) (size := 7) (by norm_num) (by norm_num) (few_rows_double (by norm_num))
  ⟨h.1, h.2.1⟩

example := C72_kt_contract doubleOps_accurate (by positivity) (by norm_num) (2 ^ 40) (few_rows_double le_rfl) firstParams firstParams_contract

example : ktHalvings doubleOps 64 32 = 1 := C72_halvings_power doubleOps_exact 5 1 (by norm_num)

example : cppPower doubleOps 1000000 = 9 := by
  have h := C72_power doubleOps_accurate (by positivity) (by norm_num) (n := 1000000) (by norm_num) (few_rows_double (by norm_num))
  have hl : Nat.log 4 1000000 = 9 := by decide +kernel
  rw [hl] at h
  rcases h with h | ⟨h, -⟩
  · exact h
  · norm_num at h

/-- Compress++ on seventeen points with `g = 1` and a coreset of the largest admissible size eight. -/
example : ∃ f : Fin 8 → Fin 17, Function.Injective f ∧
    compressPlusPlusAt (size := 8) (cppPower doubleOps 17).toNat firstParams 1 (fun _ => firstChoice) ⟨fun i : Fin 17 => (i : ℝ), fun _ => 1⟩ = .ok (fun t => ((f t : ℕ) : ℤ)) := by
  have h := C72_power doubleOps_accurate (by positivity) (by norm_num) (n := 17) (by norm_num) (few_rows_double (by norm_num))
  have hl : Nat.log 4 17 = 2 := by decide +kernel
  rw [hl] at h
  have hp : cppPower doubleOps 17 = 2 := by
    rcases h with h | ⟨h, -⟩
    · exact h
    · norm_num at h
  refine (C72_compress doubleOps_accurate (by positivity) (by norm_num) (few_rows_double (by norm_num)) firstParams firstParams_contract 1 (fun _ => firstChoice)
    (fun _ => firstChoice_contract) ⟨fun i : Fin 17 => (i : ℝ), fun _ => 1⟩ (fun _ => one_pos) (by norm_num)).2.2.2.1 ?_
  rw [hp]
  decide

/-- A thousand rows and leaves of a hundred. -/
example : jitLeaves doubleOps 1000 100 = 16 :=
  (C72_leaves doubleOps_accurate doubleOps_exact (by positivity) (by norm_num) (by norm_num) (few_rows_double (by norm_num)) (by decide +kernel)).trans (by decide +kernel)

/-- At a power of two. -/
example : jitLeaves doubleOps 65 3 = 64 :=
  (C72_leaves doubleOps_accurate doubleOps_exact (by positivity) (by norm_num) (by norm_num) (few_rows_double (by norm_num)) (by decide +kernel)).trans (by decide +kernel)

example : 1 ≤ treeDepthFl doubleOps 343 1 7 ∧ 343 ≤ 1 * 7 ^ treeDepthFl doubleOps 343 1 7 :=
  (C72_tree_depth doubleOps_accurate (by positivity) (by norm_num) (by norm_num) (by norm_num) (by norm_num) (few_rows_double (by norm_num))).2

/-- Seven points, one test function and the factor three, with the computed depth. -/
example (mode : RecombMode) : ∃ (null : NullResolver ℚ) (k : ℕ) (out : Data k ℤ ℚ),
    treeReduceFl doubleOps 1000 null (fun x : ℚ => ![x]) mode 3 ⟨(![0, 1, 2, 3, 4, 5, 6] : Fin 7 → ℚ), ![1, 0, 2, 0, 1, 1, 3]⟩ = some ⟨k, out⟩ ∧ ∑ t, out.weights t = 1 := by
  obtain ⟨null, hnull⟩ := exists_resolver (K := ℚ)
  obtain ⟨k, out, h1, -, h2, -⟩ := C72_tree doubleOps_accurate (by positivity) (by norm_num) (few_rows_double (by norm_num)) 1000 null hnull (fun x : ℚ => ![x]) mode 3 (by norm_num)
    ⟨(![0, 1, 2, 3, 4, 5, 6] : Fin 7 → ℚ), ![1, 0, 2, 0, 1, 1, 3]⟩ (by decide +kernel) ⟨0, by norm_num⟩
  exact ⟨null, k, out, h1, h2⟩

/-- Tree recombination with one level more than needed. -/
example (mode : RecombMode) : ∃ (null : NullResolver ℚ) (k : ℕ) (out : Data k ℤ ℚ),
    treeReduceAt 1000 null (fun x : ℚ => ![x]) mode 2 3 ⟨(![0, 1, 2, 3] : Fin 4 → ℚ), ![1, 0, 2, 3]⟩ = some ⟨k, out⟩ ∧ ∑ t, out.weights t = 1 ∧ treeDepth 4 2 2 = 1 := by
  obtain ⟨null, hnull⟩ := exists_resolver (K := ℚ)
  obtain ⟨k, out, h1, -, h2, -⟩ := C27_tree_at 1000 null hnull (fun x : ℚ => ![x]) mode 2 (by norm_num) 3 (by norm_num) (by norm_num)
    ⟨(![0, 1, 2, 3] : Fin 4 → ℚ), ![1, 0, 2, 3]⟩ (by decide +kernel) ⟨0, by norm_num⟩
  exact ⟨null, k, out, h1, h2, by decide +kernel⟩

end Coreax
