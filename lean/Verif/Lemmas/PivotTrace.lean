import Verif.Lemmas.Nystrom
import Mathlib.Analysis.SpecialFunctions.Log.Basic
import Mathlib.Algebra.Order.BigOperators.Ring.Finset
import Mathlib.Algebra.Order.Chebyshev

/-!
# The trace of the residual under random pivots: one step, and the recursion it leads to
-/

namespace Coreax

open Spec

variable {n : ℕ}

namespace Spec

/-- The trace of a matrix. -/
def trace (R : Fin n → Fin n → ℝ) : ℝ := ∑ i, R i i

/-- The quadratic form of a matrix. -/
def form (R : Fin n → Fin n → ℝ) (c : Fin n → ℝ) : ℝ := ∑ i, ∑ j, c i * c j * R i j

/-- `r` orthonormal vectors. -/
def Orthonormal {r : ℕ} (q : Fin r → Fin n → ℝ) : Prop := ∀ a b, ∑ i, q a i * q b i = if a = b then 1 else 0

/-- The part of the trace that the span of orthonormal vectors captures. -/
def captured {r : ℕ} (R : Fin n → Fin n → ℝ) (q : Fin r → Fin n → ℝ) : ℝ := ∑ a, form R (q a)

/-- What remains of the trace: the error, in trace norm, of the compression to the span of the vectors. With eigenvectors of the `r`
largest eigenvalues this is the least error of any approximation of rank `r`. -/
def tail {r : ℕ} (R : Fin n → Fin n → ℝ) (q : Fin r → Fin n → ℝ) : ℝ := trace R - captured R q

end Spec

/-- The residual after eliminating row `p` (unchanged if the pivot is zero). -/
noncomputable def pivotOut (R : Fin n → Fin n → ℝ) (p : Fin n) : Fin n → Fin n → ℝ := fun i j => R i j - R i p * R j p / R p p

theorem pivotOut_symm {R : Fin n → Fin n → ℝ} (hs : ∀ i j, R i j = R j i) (p : Fin n) (i j : Fin n) : pivotOut R p i j = pivotOut R p j i := by
  unfold pivotOut; rw [hs i j]; ring

theorem pivotOut_psd {R : Fin n → Fin n → ℝ} (hR : NonnegForm R) (hs : ∀ i j, R i j = R j i) (p : Fin n) : NonnegForm (pivotOut R p) := by
  rcases (NonnegForm.diag hR p).lt_or_eq with hp | hp
  · exact NonnegForm.schur hR hs hp
  · unfold pivotOut
    simpa [← hp] using hR

theorem form_pivotOut (R : Fin n → Fin n → ℝ) (p : Fin n) (c : Fin n → ℝ) :
    form (pivotOut R p) c = form R c - (∑ i, c i * R i p) ^ 2 / R p p := by
  unfold form pivotOut
  have : ∀ i j, c i * c j * (R i j - R i p * R j p / R p p) = c i * c j * R i j - (c i * R i p) * (c j * R j p) / R p p := fun i j => by ring
  simp only [this, Finset.sum_sub_distrib, ← Finset.sum_div]
  rw [pow_two, Finset.sum_mul_sum]

theorem trace_pivotOut (R : Fin n → Fin n → ℝ) (p : Fin n) : trace (pivotOut R p) = trace R - (∑ i, R i p ^ 2) / R p p := by
  unfold trace pivotOut
  rw [Finset.sum_sub_distrib, Finset.sum_div]
  congr 1
  exact Finset.sum_congr rfl fun i _ => by rw [pow_two]

theorem eq_zero_of_trace {R : Fin n → Fin n → ℝ} (hR : NonnegForm R) (hs : ∀ i j, R i j = R j i) (h : trace R = 0) : R = fun _ _ => 0 := by
  funext i j
  have := (Finset.sum_eq_zero_iff_of_nonneg fun i _ => NonnegForm.diag hR i).1 h i (Finset.mem_univ i)
  exact NonnegForm.row_zero hR hs this j

theorem bessel {r : ℕ} {q : Fin r → Fin n → ℝ} (hq : Orthonormal q) (v : Fin n → ℝ) : ∑ a, (∑ i, q a i * v i) ^ 2 ≤ ∑ i, v i ^ 2 := by
  have h : 0 ≤ ∑ i, (v i - ∑ a, (∑ l, q a l * v l) * q a i) ^ 2 := Finset.sum_nonneg fun i _ => sq_nonneg _
  have e1 : ∀ i, (v i - ∑ a, (∑ l, q a l * v l) * q a i) ^ 2 =
      v i ^ 2 - 2 * (∑ a, (∑ l, q a l * v l) * (q a i * v i)) + ∑ a, ∑ b, (∑ l, q a l * v l) * (∑ l, q b l * v l) * (q a i * q b i) := by
    intro i
    rw [sub_sq]
    congr 1
    · congr 1
      rw [mul_assoc, Finset.mul_sum]
      congr 1
      exact Finset.sum_congr rfl fun a _ => by ring
    · rw [pow_two, Finset.sum_mul_sum]
      exact Finset.sum_congr rfl fun a _ => Finset.sum_congr rfl fun b _ => by ring
  have e2 : ∑ i, ∑ a, (∑ l, q a l * v l) * (q a i * v i) = ∑ a, (∑ l, q a l * v l) ^ 2 := by
    rw [Finset.sum_comm]
    refine Finset.sum_congr rfl fun a _ => ?_
    rw [← Finset.mul_sum, pow_two]
  have e3 : ∑ i, ∑ a, ∑ b, (∑ l, q a l * v l) * (∑ l, q b l * v l) * (q a i * q b i) = ∑ a, (∑ l, q a l * v l) ^ 2 := by
    rw [Finset.sum_comm]
    refine Finset.sum_congr rfl fun a _ => ?_
    rw [Finset.sum_comm]
    have hq' : ∀ b, ∑ i, q a i * q b i = if a = b then 1 else 0 := hq a
    simp only [← Finset.mul_sum, hq']
    simp [pow_two]
  simp only [e1, Finset.sum_add_distrib, Finset.sum_sub_distrib, ← Finset.mul_sum, e2, e3] at h
  linarith

/-- Eliminating a row does not increase the part that is not captured. -/
theorem tail_pivotOut {r : ℕ} {q : Fin r → Fin n → ℝ} (hq : Orthonormal q) {R : Fin n → Fin n → ℝ} (hR : NonnegForm R) (p : Fin n) :
    tail (pivotOut R p) q ≤ tail R q := by
  unfold tail captured
  simp only [form_pivotOut, trace_pivotOut, Finset.sum_sub_distrib, ← Finset.sum_div]
  have h := div_le_div_of_nonneg_right (bessel hq fun i => R i p) (NonnegForm.diag hR p)
  linarith

/-- The expectation of the quadratic form after a random pivot. -/
theorem form_expected {R : Fin n → Fin n → ℝ} (hR : NonnegForm R) (hs : ∀ i j, R i j = R j i) (c : Fin n → ℝ) (hT : 0 < trace R) :
    ∑ p, R p p / trace R * form (pivotOut R p) c = form R c - (∑ p, (∑ i, c i * R i p) ^ 2) / trace R := by
  have e : ∀ p, R p p / trace R * form (pivotOut R p) c = R p p / trace R * form R c - (∑ i, c i * R i p) ^ 2 / trace R := by
    intro p
    rw [form_pivotOut]
    by_cases hp : R p p = 0
    · have h0 : ∀ i, R i p = 0 := fun i => by rw [hs]; exact NonnegForm.row_zero hR hs hp i
      simp [h0]
    · field_simp
  simp only [e, Finset.sum_sub_distrib, ← Finset.sum_mul, ← Finset.sum_div]
  have : (∑ p, R p p) / trace R = 1 := div_self hT.ne'
  rw [this, one_mul]

/-- One step: the expectation of the captured part. -/
theorem captured_expected {r : ℕ} {q : Fin r → Fin n → ℝ} (hq : Orthonormal q) {R : Fin n → Fin n → ℝ} (hR : NonnegForm R) (hs : ∀ i j, R i j = R j i)
    (hT : 0 < trace R) : ∑ p, R p p / trace R * captured (pivotOut R p) q ≤ captured R q - captured R q ^ 2 / (r * trace R) := by
  unfold captured
  simp only [Finset.mul_sum]
  rw [Finset.sum_comm]
  simp only [form_expected hR hs _ hT, Finset.sum_sub_distrib, ← Finset.sum_div]
  -- `(qᵀ R q)² ≤ |R q|²`
  have h1 : ∀ a, form R (q a) ^ 2 ≤ ∑ p, (∑ i, q a i * R i p) ^ 2 := by
    intro a
    have hf : form R (q a) = ∑ p, q a p * ∑ i, q a i * R i p := by
      unfold form
      rw [Finset.sum_comm]
      refine Finset.sum_congr rfl fun j _ => ?_
      rw [Finset.mul_sum]
      exact Finset.sum_congr rfl fun i _ => by ring
    have hn : ∑ p, q a p ^ 2 = 1 := by
      have := hq a a
      simpa [pow_two] using this
    have := Finset.sum_mul_sq_le_sq_mul_sq Finset.univ (q a) (fun p => ∑ i, q a i * R i p)
    rw [hf]
    rwa [hn, one_mul] at this
  have h2 : (∑ a, form R (q a)) ^ 2 ≤ r * ∑ a, ∑ p, (∑ i, q a i * R i p) ^ 2 := by
    have := sq_sum_le_card_mul_sum_sq (s := (Finset.univ : Finset (Fin r))) (f := fun a => form R (q a))
    simp only [Finset.card_univ, Fintype.card_fin] at this
    refine this.trans (mul_le_mul_of_nonneg_left (Finset.sum_le_sum fun a _ => h1 a) (Nat.cast_nonneg _))
  have h3 : (∑ a, form R (q a)) ^ 2 / (r * trace R) ≤ (∑ a, ∑ p, (∑ i, q a i * R i p) ^ 2) / trace R := by
    rcases Nat.eq_zero_or_pos r with rfl | hr
    · simp
    · have hr' : (0 : ℝ) < r := by exact_mod_cast hr
      rw [div_le_div_iff₀ (by positivity) hT]
      nlinarith
  linarith

/-! ### The recursion -/

/-- A sequence with `a' ≤ a - a² / (r (a + b))` falls to `ε b` within `r / ε + r log (a₀ / (ε b))` steps. -/
theorem recursion_bound {a : ℕ → ℝ} {r b ε : ℝ} (hr : 0 < r) (hb : 0 < b) (hε : 0 < ε) (h0 : ∀ i, 0 ≤ a i)
    (hstep : ∀ i, a (i + 1) ≤ a i - a i ^ 2 / (r * (a i + b))) (T : ℕ) (hT : r / ε + r * Real.log (a 0 / (ε * b)) ≤ T) : a T ≤ ε * b := by
  by_contra hcon
  push Not at hcon
  have hεb : 0 < ε * b := by positivity
  have hmono : ∀ i, a (i + 1) ≤ a i := fun i => (hstep i).trans (by
    have : 0 ≤ a i ^ 2 / (r * (a i + b)) := div_nonneg (sq_nonneg _) (mul_nonneg hr.le (add_nonneg (h0 i) hb.le))
    linarith)
  have hanti : Antitone a := antitone_nat_of_succ_le hmono
  have hpos : ∀ i, i ≤ T → 0 < a i := fun i hi => lt_trans hεb (lt_of_lt_of_le hcon (hanti hi))
  have key : ∀ i, i ≤ T → r * (Real.log (a i) - b / a i) + i ≤ r * (Real.log (a 0) - b / a 0) := by
    intro i
    induction i with
    | zero => intro _; simp
    | succ i ih =>
      intro hi
      have hih := ih (by omega)
      have hx := hpos i (by omega)
      have hy := hpos (i + 1) hi
      have hd := hstep i
      -- `log (x / y) ≥ (x - y) / x` and `b / y - b / x ≥ b (x - y) / x²`
      have hlog : (a i - a (i + 1)) / a i ≤ Real.log (a i) - Real.log (a (i + 1)) := by
        have := Real.log_le_sub_one_of_pos (div_pos hy hx)
        rw [Real.log_div hy.ne' hx.ne'] at this
        have e : (a i - a (i + 1)) / a i = 1 - a (i + 1) / a i := by field_simp
        rw [e]; linarith
      have hdiv : b * (a i - a (i + 1)) / a i ^ 2 ≤ b / a (i + 1) - b / a i := by
        have e : b / a (i + 1) - b / a i = b * (a i - a (i + 1)) / (a i * a (i + 1)) := by field_simp
        rw [e]
        refine div_le_div_of_nonneg_left (mul_nonneg hb.le (by linarith [hmono i])) (by positivity) ?_
        nlinarith [hmono i]
      have hsum : 1 / r ≤ (a i - a (i + 1)) / a i + b * (a i - a (i + 1)) / a i ^ 2 := by
        have e : (a i - a (i + 1)) / a i + b * (a i - a (i + 1)) / a i ^ 2 = (a i - a (i + 1)) * (a i + b) / a i ^ 2 := by field_simp
        rw [e, div_le_div_iff₀ hr (by positivity)]
        have h2 : a i ^ 2 / (r * (a i + b)) ≤ a i - a (i + 1) := by linarith
        rw [div_le_iff₀ (by positivity)] at h2
        nlinarith
      have h3 : 1 ≤ r * ((Real.log (a i) - Real.log (a (i + 1))) + (b / a (i + 1) - b / a i)) := by
        have h4 : 1 / r ≤ (Real.log (a i) - Real.log (a (i + 1))) + (b / a (i + 1) - b / a i) := by linarith
        rwa [div_le_iff₀' hr] at h4
      push_cast
      nlinarith
  have hk := key T le_rfl
  have hT0 := hpos T le_rfl
  have ha0 := hpos 0 (by omega)
  have h1 : Real.log (ε * b) ≤ Real.log (a T) := Real.log_le_log hεb hcon.le
  have h2 : b / a T < 1 / ε := by
    rw [div_lt_div_iff₀ hT0 hε]
    linarith
  have h3 : 0 < b / a 0 := by positivity
  have h4 : Real.log (a 0 / (ε * b)) = Real.log (a 0) - Real.log (ε * b) := Real.log_div ha0.ne' hεb.ne'
  rw [h4] at hT
  have h5 : r / ε = r * (1 / ε) := by ring
  rw [h5] at hT
  nlinarith

end Coreax
