import Verif.Model.GaussianKde
import Verif.Lemmas.Calculus
import Mathlib.LinearAlgebra.Dimension.Constructions
import Mathlib.LinearAlgebra.FiniteDimensional.Lemmas
import Mathlib.Analysis.SpecialFunctions.Log.Deriv
import Mathlib.Analysis.SpecialFunctions.ExpDeriv

/-!
# C105: Gaussian density estimates, their score and their covariance
-/

namespace Coreax

open Finset

variable {n d : ℕ}

namespace Spec

/-- The precision matrix with the factor `W`. -/
def precision (W : Fin d → Fin d → ℝ) (k l : Fin d) : ℝ := ∑ m, W k m * W l m

/-- The squared Mahalanobis distance. -/
def mahalanobis (P : Fin d → Fin d → ℝ) (a b : Fin d → ℝ) : ℝ := ∑ k, ∑ l, (a k - b k) * P k l * (a l - b l)

/-- The share of row `i` in the density at `z`. -/
noncomputable def share (P : Fin d → Fin d → ℝ) (w : Fin n → ℝ) (x : Fin n → Fin d → ℝ) (z : Fin d → ℝ) (i : Fin n) : ℝ :=
  w i * Real.exp (-(1 / 2) * mahalanobis P (x i) z) / ∑ j, w j * Real.exp (-(1 / 2) * mahalanobis P (x j) z)

/-- The rows with weight lie in a hyperplane. -/
def InHyperplane (w : Fin n → ℝ) (x : Fin n → Fin d → ℝ) : Prop :=
  ∃ v : Fin d → ℝ, v ≠ 0 ∧ ∃ a : ℝ, ∀ i, w i ≠ 0 → ∑ k, v k * x i k = a

/-- A matrix that has no inverse. -/
def Singular (C : Fin d → Fin d → ℝ) : Prop := ∃ v : Fin d → ℝ, v ≠ 0 ∧ ∀ k, ∑ l, C k l * v l = 0

end Spec

open Spec

namespace GaussianKde

theorem weights_pos {w : Fin n → ℝ} (hw : ∀ i, 0 < w i) (i : Fin n) : 0 < kdeWeights w i :=
  div_pos (hw i) (sum_pos (fun j _ => hw j) ⟨i, mem_univ _⟩)

theorem weights_nonneg {w : Fin n → ℝ} (hw : ∀ i, 0 ≤ w i) (i : Fin n) : 0 ≤ kdeWeights w i :=
  div_nonneg (hw i) (sum_nonneg fun j _ => hw j)

theorem weights_sum {w : Fin n → ℝ} (h : ∑ i, w i ≠ 0) : ∑ i, kdeWeights w i = 1 := by
  simp only [kdeWeights, ← sum_div]
  exact div_self h

theorem white_sq (W : Fin d → Fin d → ℝ) (a z : Fin d → ℝ) :
    ∑ l, ((∑ k, a k * W k l) - ∑ k, z k * W k l) ^ 2 = mahalanobis (precision W) a z := by
  simp only [mahalanobis, precision, ← sum_sub_distrib, ← sub_mul, pow_two, sum_mul_sum, mul_sum, sum_mul]
  rw [sum_comm]
  refine sum_congr rfl fun k _ => ?_
  rw [sum_comm]
  exact sum_congr rfl fun l _ => sum_congr rfl fun m _ => by ring

theorem mahalanobis_nonneg (W : Fin d → Fin d → ℝ) (a z : Fin d → ℝ) : 0 ≤ mahalanobis (precision W) a z := by
  rw [← white_sq]
  exact sum_nonneg fun _ _ => sq_nonneg _

theorem mahalanobis_self (P : Fin d → Fin d → ℝ) (a : Fin d → ℝ) : mahalanobis P a a = 0 := by simp [mahalanobis]

/-- The log density in the usual form. -/
theorem logpdf_eq (hn : 0 < n) (W : Fin d → Fin d → ℝ) {w : Fin n → ℝ} (hw : ∀ i, 0 < w i) (x : Fin n → Vec d) (z : Vec d) :
    kdeLogpdf W w x z = (∑ k, Real.log (W k k) - 1 / 2 * d * Real.log (2 * Real.pi)) +
      Real.log (∑ i, kdeWeights w i * Real.exp (-(1 / 2) * mahalanobis (precision W) (x i) z)) := by
  have hp : 0 < ∑ i, kdeWeights w i * Real.exp (-(1 / 2) * mahalanobis (precision W) (x i) z) :=
    sum_pos (fun i _ => mul_pos (weights_pos hw i) (Real.exp_pos _)) ⟨⟨0, hn⟩, mem_univ _⟩
  simp only [kdeLogpdf, white_sq]
  generalize ∑ k, Real.log (W k k) - 1 / 2 * d * Real.log (2 * Real.pi) = c
  have : ∀ i, Real.exp (Real.log (kdeWeights w i) + (c - 1 / 2 * mahalanobis (precision W) (x i) z)) =
      Real.exp c * (kdeWeights w i * Real.exp (-(1 / 2) * mahalanobis (precision W) (x i) z)) := fun i => by
    rw [Real.exp_add, Real.exp_log (weights_pos hw i), sub_eq_add_neg, Real.exp_add, neg_mul]
    ring
  simp only [this, ← mul_sum]
  rw [Real.log_mul (Real.exp_pos _).ne' hp.ne', Real.log_exp]

theorem isGrad_mahalanobis (W : Fin d → Fin d → ℝ) (a : Fin d → ℝ) (z : Fin d → ℝ) :
    IsGrad (fun z => mahalanobis (precision W) a z) (fun k => -2 * ∑ l, precision W k l * (a l - z l)) z := by
  have h1 : ∀ l, IsGrad (fun z : Fin d → ℝ => (∑ k, a k * W k l) - ∑ k, z k * W k l) (fun k => -W k l) z := fun l =>
    ((isGrad_const _).sub (isGrad_dot fun k => W k l)).congr (fun _ => rfl) (fun k => by ring)
  refine (IsGrad.sum univ fun l _ => (h1 l).mul (h1 l)).congr (fun z => ?_) (fun k => ?_)
  · rw [← white_sq]
    exact sum_congr rfl fun l _ => pow_two _
  · simp only [precision, sum_mul, mul_sum, ← sum_sub_distrib, ← sub_mul]
    rw [sum_comm]
    refine sum_congr rfl fun m _ => ?_
    rw [← sum_add_distrib]
    exact sum_congr rfl fun l _ => by ring

end GaussianKde

open GaussianKde

/-- C105: the gradient of the log density estimate.  It is the precision matrix times the difference of a mean of the rows and the point,
each row counting with its share in the density at the point. -/
theorem C105_score (hn : 0 < n) (W : Fin d → Fin d → ℝ) {w : Fin n → ℝ} (hw : ∀ i, 0 < w i) (x : Fin n → Vec d) (z : Vec d) :
    IsGrad (kdeLogpdf W w x) (fun k => ∑ l, precision W k l * ((∑ i, share (precision W) w x z i * x i l) - z l)) z ∧
      (∀ i, 0 < share (precision W) w x z i) ∧ ∑ i, share (precision W) w x z i = 1 := by
  have hs : 0 < ∑ i, w i := sum_pos (fun i _ => hw i) ⟨⟨0, hn⟩, mem_univ _⟩
  set P := precision W with hP
  set e : Fin n → ℝ := fun i => w i * Real.exp (-(1 / 2) * mahalanobis P (x i) z) with he
  have hep : ∀ i, 0 < e i := fun i => mul_pos (hw i) (Real.exp_pos _)
  have hes : 0 < ∑ i, e i := sum_pos (fun i _ => hep i) ⟨⟨0, hn⟩, mem_univ _⟩
  have hsh : ∀ i, share P w x z i = e i / ∑ j, e j := fun i => rfl
  have hsum : ∑ i, share P w x z i = 1 := by
    simp only [hsh, ← sum_div]
    exact div_self hes.ne'
  refine ⟨?_, fun i => by rw [hsh]; exact div_pos (hep i) hes, hsum⟩
  have hg : ∀ i, IsGrad (fun z => kdeWeights w i * Real.exp (-(1 / 2) * mahalanobis P (x i) z))
      (fun k => kdeWeights w i * (Real.exp (-(1 / 2) * mahalanobis P (x i) z) * ∑ l, P k l * (x i l - z l))) z := fun i => by
    have h := ((isGrad_mahalanobis W (x i) z).const_mul (-(1 / 2))).scalar (Real.hasDerivAt_exp _)
    exact (h.const_mul (kdeWeights w i)).congr (fun _ => rfl) (fun k => by rw [hP]; ring)
  have hkw : ∀ i, kdeWeights w i * Real.exp (-(1 / 2) * mahalanobis P (x i) z) = e i / ∑ j, w j := fun i => by
    simp only [kdeWeights, he]; ring
  have hsum' : ∑ i, kdeWeights w i * Real.exp (-(1 / 2) * mahalanobis P (x i) z) = (∑ i, e i) / ∑ j, w j := by
    simp only [hkw, sum_div]
  have hpos : 0 < ∑ i, kdeWeights w i * Real.exp (-(1 / 2) * mahalanobis P (x i) z) := by rw [hsum']; exact div_pos hes hs
  have hlog := (IsGrad.sum univ fun i _ => hg i).scalar (Real.hasDerivAt_log hpos.ne')
  refine ((isGrad_const (∑ k, Real.log (W k k) - 1 / 2 * d * Real.log (2 * Real.pi))).add hlog).congr (fun z => logpdf_eq hn W hw x z) (fun k => ?_)
  have hz : ∀ l, (∑ i, share P w x z i * x i l) - z l = ∑ i, share P w x z i * (x i l - z l) := fun l => by
    simp only [mul_sub, sum_sub_distrib, ← sum_mul, hsum, one_mul]
  simp only [hz, mul_sum, zero_add]
  rw [sum_comm]
  refine sum_congr rfl fun i _ => sum_congr rfl fun l _ => ?_
  rw [hsum', hsh]
  have : kdeWeights w i * (Real.exp (-(1 / 2) * mahalanobis P (x i) z) * (P k l * (x i l - z l))) = e i / (∑ j, w j) * (P k l * (x i l - z l)) := by
    rw [← hkw]; ring
  rw [this, inv_div]
  field_simp

example := C105_score (n := 2) (d := 2) (by norm_num) (fun k l => if k = l then 2 else 0) (w := ![1, 2]) (by intro i; fin_cases i <;> norm_num) ![![0, 0], ![1, 3]] ![1, 1]

/-- C105: the score function of the blobs benchmark. -/
theorem C105_blobs_score (hn : 0 < n) (W : Fin d → Fin d → ℝ) (x : Fin n → Vec d) (z : Vec d) (k : Fin d) :
    blobsScore W x z k = ∑ l, precision W k l * ((∑ i, share (precision W) (fun _ => 1) x z i * x i l) - z l) :=
  congrFun ((isGrad_fderiv (C105_score hn W (fun _ => one_pos) x z).1.differentiableAt).unique (C105_score hn W (fun _ => one_pos) x z).1) k

example := C105_blobs_score (n := 2) (d := 2) (by norm_num) (fun k l => if k = l then 2 else 0) ![![0, 0], ![1, 3]] ![1, 1] 0

/-- C105: where the score is zero.  With a Cholesky factor that can be inverted the points with score zero are those that are their own mean, so they
lie between the rows. -/
theorem C105_zero (hn : 0 < n) (W : Fin d → Fin d → ℝ) (hW : ¬ Singular (precision W)) (x : Fin n → Vec d) (z : Vec d) :
    blobsScore W x z = 0 ↔ ∀ l, z l = ∑ i, share (precision W) (fun _ => 1) x z i * x i l := by
  constructor
  · intro h
    by_contra hne
    push Not at hne
    obtain ⟨l, hl⟩ := hne
    refine hW ⟨fun l => (∑ i, share (precision W) (fun _ => 1) x z i * x i l) - z l, fun h0 => hl ?_, fun k => ?_⟩
    · have := congrFun h0 l
      simp only [Pi.zero_apply] at this
      linarith
    · rw [← C105_blobs_score hn W x z k, h]; rfl
  · intro h
    funext k
    rw [C105_blobs_score hn W x z k]
    refine sum_eq_zero fun l _ => ?_
    rw [← h l, sub_self, mul_zero]

example : blobsScore (n := 2) (d := 1) (fun _ _ => 1) ![![-1], ![1]] ![0] = 0 := by
  refine (C105_zero (by norm_num) _ ?_ _ _).2 fun l => ?_
  · rintro ⟨v, hv, h⟩
    refine hv (funext fun k => ?_)
    have := h k
    fin_cases k
    simpa [precision] using this
  · fin_cases l
    simp [share, mahalanobis, precision]

/-- C105: bounds for the log density.  It is at most the constant of the normal density, and at a row at least this constant plus the logarithm of
the weight of the row. -/
theorem C105_logpdf_bounds (hn : 0 < n) (W : Fin d → Fin d → ℝ) {w : Fin n → ℝ} (hw : ∀ i, 0 < w i) (x : Fin n → Vec d) :
    (∀ z, kdeLogpdf W w x z ≤ ∑ k, Real.log (W k k) - 1 / 2 * d * Real.log (2 * Real.pi)) ∧
      ∀ i, (∑ k, Real.log (W k k) - 1 / 2 * d * Real.log (2 * Real.pi)) + Real.log (kdeWeights w i) ≤ kdeLogpdf W w x (x i) := by
  have hs : ∑ i, w i ≠ 0 := (sum_pos (fun i _ => hw i) ⟨⟨0, hn⟩, mem_univ _⟩).ne'
  constructor
  · intro z
    rw [logpdf_eq hn W hw]
    have h0 : 0 < ∑ i, kdeWeights w i * Real.exp (-(1 / 2) * mahalanobis (precision W) (x i) z) :=
      sum_pos (fun i _ => mul_pos (weights_pos hw i) (Real.exp_pos _)) ⟨⟨0, hn⟩, mem_univ _⟩
    have h1 : ∑ i, kdeWeights w i * Real.exp (-(1 / 2) * mahalanobis (precision W) (x i) z) ≤ 1 := by
      refine (sum_le_sum fun i _ => ?_).trans (weights_sum hs).le
      have : Real.exp (-(1 / 2) * mahalanobis (precision W) (x i) z) ≤ 1 := Real.exp_le_one_iff.2 (by nlinarith [mahalanobis_nonneg W (x i) z])
      exact mul_le_of_le_one_right (weights_pos hw i).le this
    linarith [Real.log_nonpos h0.le h1]
  · intro i
    rw [logpdf_eq hn W hw, add_le_add_iff_left]
    refine Real.log_le_log (weights_pos hw i) ?_
    have h1 : kdeWeights w i = kdeWeights w i * Real.exp (-(1 / 2) * mahalanobis (precision W) (x i) (x i)) := by
      rw [mahalanobis_self, mul_zero, Real.exp_zero, mul_one]
    conv_lhs => rw [h1]
    exact single_le_sum (f := fun j => kdeWeights w j * Real.exp (-(1 / 2) * mahalanobis (precision W) (x j) (x i)))
      (fun j _ => mul_nonneg (weights_pos hw j).le (Real.exp_pos _).le) (mem_univ i)

example := C105_logpdf_bounds (n := 2) (d := 2) (by norm_num) (fun k l => if k = l then 2 else 0) (w := ![1, 2]) (by intro i; fin_cases i <;> norm_num) ![![0, 0], ![1, 3]]

/-- C105: the entropic regularisation of Stein thinning is mild.  With equal weights the log densities of any two of `n` rows differ by at most
`log n`, whatever the rows and the bandwidth; so with the default `1 / m` the term that is subtracted in step `t` of `m` differs by at most `t / m * log n`
between rows. -/
theorem C105_regularisation (W : Fin d → Fin d → ℝ) {u : ℝ} (hu : 0 < u) (x : Fin n → Vec d) (i j : Fin n) :
    |kdeLogpdf W (fun _ => u) x (x i) - kdeLogpdf W (fun _ => u) x (x j)| ≤ Real.log n ∧
      ∀ m t : ℕ, 0 < m → |t * (1 / (m : ℝ) * kdeLogpdf W (fun _ => u) x (x i)) - t * (1 / (m : ℝ) * kdeLogpdf W (fun _ => u) x (x j))| ≤ (t : ℝ) / m * Real.log n := by
  have hn : 0 < n := i.pos
  have hn' : (0 : ℝ) < n := by exact_mod_cast hn
  have hkw : ∀ i : Fin n, Real.log (kdeWeights (fun _ : Fin n => u) i) = -Real.log n := fun i => by
    rw [kdeWeights, sum_const, card_univ, Fintype.card_fin, nsmul_eq_mul, div_mul_cancel_right₀ hu.ne', Real.log_inv]
  obtain ⟨h1, h2⟩ := C105_logpdf_bounds hn W (fun _ => hu) x
  have hd : |kdeLogpdf W (fun _ => u) x (x i) - kdeLogpdf W (fun _ => u) x (x j)| ≤ Real.log n := by
    have a1 := h1 (x i)
    have a2 := h1 (x j)
    have b1 := h2 i
    have b2 := h2 j
    rw [hkw] at b1 b2
    rw [abs_le]
    constructor <;> linarith
  refine ⟨hd, fun m t hm => ?_⟩
  have hm' : (0 : ℝ) < m := by exact_mod_cast hm
  rw [show (t : ℝ) * (1 / (m : ℝ) * kdeLogpdf W (fun _ => u) x (x i)) - t * (1 / (m : ℝ) * kdeLogpdf W (fun _ => u) x (x j)) =
    (t : ℝ) / m * (kdeLogpdf W (fun _ => u) x (x i) - kdeLogpdf W (fun _ => u) x (x j)) by ring, abs_mul, abs_of_nonneg (by positivity)]
  exact mul_le_mul_of_nonneg_left hd (by positivity)

example := C105_regularisation (n := 3) (d := 2) (fun k l => if k = l then 2 else 0) (u := 1) one_pos ![![0, 0], ![1, 3], ![50, 60]] 0 2

/-- C105: with equal weights the covariance is the unbiased sample covariance, and the bandwidth factor is `n ** (-1 / (d + 4))`. -/
theorem C105_equal_weights (hn : 2 ≤ n) {u : ℝ} (hu : 0 < u) (x : Fin n → Vec d) (k l : Fin d) :
    kdeCov (fun _ => u) x k l = (∑ i, (x i k - (∑ j, x j k) / n) * (x i l - (∑ j, x j l) / n)) / (n - 1) ∧
      kdeFactor (fun _ : Fin n => u) d = (n : ℝ) ^ (-1 / ((d : ℝ) + 4)) := by
  have hn' : (2 : ℝ) ≤ n := by exact_mod_cast hn
  have hkw : ∀ i : Fin n, kdeWeights (fun _ : Fin n => u) i = (n : ℝ)⁻¹ := fun i => by
    rw [kdeWeights, sum_const, card_univ, Fintype.card_fin, nsmul_eq_mul, div_mul_cancel_right₀ hu.ne']
  have hm : ∀ k, kdeMean (fun _ => u) x k = (∑ j, x j k) / n := fun k => by
    simp only [kdeMean, hkw, ← mul_sum]
    ring
  have hsq : ∑ i : Fin n, kdeWeights (fun _ : Fin n => u) i ^ 2 = (n : ℝ)⁻¹ := by
    simp only [hkw, sum_const, card_univ, Fintype.card_fin, nsmul_eq_mul]
    field_simp
  constructor
  · rw [kdeCov, hsq]
    simp only [hm, hkw, mul_assoc, ← mul_sum]
    have h1 : (n : ℝ) - 1 ≠ 0 := by linarith
    have h2 : (n : ℝ) ≠ 0 := by linarith
    have h3 : 1 - (n : ℝ)⁻¹ = (n - 1) / n := by field_simp
    rw [h3]
    field_simp
  · rw [kdeFactor, hsq, one_div, inv_inv]

example := C105_equal_weights (n := 3) (d := 2) (by norm_num) (u := 1) one_pos ![![0, 0], ![1, 3], ![50, 60]] 0 1

/-- C105: when the covariance has no inverse: exactly if the rows with weight lie in a hyperplane (at least two rows with weight). -/
theorem C105_singular_iff {w : Fin n → ℝ} (hw : ∀ i, 0 ≤ w i) (h2 : ∃ i j, i ≠ j ∧ 0 < w i ∧ 0 < w j) (x : Fin n → Vec d) :
    Singular (kdeCov w x) ↔ InHyperplane w x := by
  obtain ⟨i0, j0, hij, hi0, hj0⟩ := h2
  have hs : 0 < ∑ i, w i := sum_pos' (fun i _ => hw i) ⟨i0, mem_univ _, hi0⟩
  have hk0 := weights_nonneg hw
  have hksum := weights_sum hs.ne'
  have hkp : ∀ i, 0 < w i → 0 < kdeWeights w i := fun i hi => div_pos hi hs
  have hk1 : ∀ i, kdeWeights w i ≤ 1 := fun i => by rw [← hksum]; exact single_le_sum (fun j _ => hk0 j) (mem_univ i)
  have hf : 0 < 1 - ∑ i, kdeWeights w i ^ 2 := by
    have : ∑ i, kdeWeights w i ^ 2 < ∑ i, kdeWeights w i := by
      refine sum_lt_sum (fun i _ => by nlinarith [hk0 i, hk1 i]) ⟨i0, mem_univ _, ?_⟩
      have : kdeWeights w i0 + kdeWeights w j0 ≤ 1 := by
        rw [← hksum, ← sum_pair hij]
        exact sum_le_sum_of_subset_of_nonneg (subset_univ _) fun k _ _ => hk0 k
      nlinarith [hkp i0 hi0, hkp j0 hj0]
    linarith
  have hcv : ∀ (v : Fin d → ℝ) k, ∑ l, kdeCov w x k l * v l =
      (∑ i, kdeWeights w i * (x i k - kdeMean w x k) * ∑ l, v l * (x i l - kdeMean w x l)) / (1 - ∑ i, kdeWeights w i ^ 2) := fun v k => by
    simp only [kdeCov, div_mul_eq_mul_div, ← sum_div, sum_mul, mul_sum]
    rw [sum_comm]
    congr 1
    exact sum_congr rfl fun i _ => sum_congr rfl fun l _ => by ring
  have hcenter : ∀ (v : Fin d → ℝ) i, ∑ l, v l * (x i l - kdeMean w x l) = (∑ l, v l * x i l) - ∑ l, v l * kdeMean w x l := fun v i => by
    simp only [mul_sub, sum_sub_distrib]
  constructor
  · rintro ⟨v, hv, h⟩
    refine ⟨v, hv, ∑ l, v l * kdeMean w x l, fun i hi => ?_⟩
    have hq : ∑ k, v k * ∑ l, kdeCov w x k l * v l = 0 := sum_eq_zero fun k _ => by rw [h k, mul_zero]
    simp only [hcv, mul_div_assoc', ← sum_div] at hq
    have hq' : ∑ i, kdeWeights w i * (∑ l, v l * (x i l - kdeMean w x l)) ^ 2 = 0 := by
      have := (div_eq_zero_iff.1 hq).resolve_right hf.ne'
      simp only [mul_sum] at this
      rw [sum_comm] at this
      rw [← this]
      refine sum_congr rfl fun i _ => ?_
      rw [pow_two, sum_mul_sum, mul_sum]
      refine sum_congr rfl fun k _ => ?_
      rw [mul_sum]
      exact sum_congr rfl fun l _ => by ring
    have hz := (sum_eq_zero_iff_of_nonneg fun i _ => mul_nonneg (hk0 i) (sq_nonneg _)).1 hq' i (mem_univ i)
    have hp := hkp i (lt_of_le_of_ne (hw i) (Ne.symm hi))
    have := pow_eq_zero_iff (two_ne_zero) |>.1 ((mul_eq_zero.1 hz).resolve_left hp.ne')
    rw [hcenter] at this
    linarith
  · rintro ⟨v, hv, a, h⟩
    refine ⟨v, hv, fun k => ?_⟩
    have hm : ∑ l, v l * kdeMean w x l = a := by
      simp only [kdeMean, mul_sum]
      rw [sum_comm]
      have : ∀ i, ∑ l, v l * (kdeWeights w i * x i l) = kdeWeights w i * a := fun i => by
        by_cases hi : w i = 0
        · simp [kdeWeights, hi]
        · rw [← h i hi, mul_sum]
          exact sum_congr rfl fun l _ => by ring
      simp only [this, ← sum_mul, hksum, one_mul]
    rw [hcv]
    refine div_eq_zero_iff.2 (.inl (sum_eq_zero fun i _ => ?_))
    by_cases hi : w i = 0
    · simp [kdeWeights, hi]
    · rw [hcenter, h i hi, hm, sub_self, mul_zero]

example : Singular (kdeCov (fun _ => 1) ![![1, 2], ![2, 4], ![3, 6]] : Fin 2 → Fin 2 → ℝ) :=
  (C105_singular_iff (fun _ => zero_le_one) ⟨0, 1, by decide, one_pos, one_pos⟩ _).2
    ⟨![2, -1], fun h => by simpa using congrFun h 0, 0, fun i _ => by fin_cases i <;> norm_num [Fin.sum_univ_two]⟩

example : ¬ Singular (kdeCov (fun _ => 1) ![![0, 0], ![1, 0], ![0, 1]] : Fin 2 → Fin 2 → ℝ) := by
  rw [C105_singular_iff (fun _ => zero_le_one) ⟨0, 1, by decide, one_pos, one_pos⟩]
  rintro ⟨v, hv, a, h⟩
  have h0 := h 0 one_ne_zero
  have h1 := h 1 one_ne_zero
  have h2 := h 2 one_ne_zero
  simp [Fin.sum_univ_two] at h0 h1 h2
  refine hv (funext fun k => ?_)
  fin_cases k
  · simpa [← h0] using h1
  · simpa [← h0] using h2

/-- C105: in particular with at most as many rows as columns the covariance never has an inverse, so a density estimate needs more rows than
columns. -/
theorem C105_few_rows (hnd : n ≤ d) {w : Fin n → ℝ} (hw : ∀ i, 0 ≤ w i) (h2 : ∃ i j, i ≠ j ∧ 0 < w i ∧ 0 < w j) (x : Fin n → Vec d) :
    Singular (kdeCov w x) := by
  rw [C105_singular_iff hw h2]
  obtain ⟨i0, j0, -, -, -⟩ := h2
  -- the map `v ↦ (v · (x i - x i0))` for `i ≠ i0` has a kernel
  let f : (Fin d → ℝ) →ₗ[ℝ] ({i : Fin n // i ≠ i0} → ℝ) := LinearMap.pi fun i => ∑ k, (x i k - x i0 k) • LinearMap.proj k
  have hlt : Module.finrank ℝ ({i : Fin n // i ≠ i0} → ℝ) < Module.finrank ℝ (Fin d → ℝ) := by
    have hn0 := i0.pos
    simp only [Module.finrank_pi, Fintype.card_subtype_compl, Fintype.card_fin, Fintype.card_unique]
    omega
  obtain ⟨v, hv, hv0⟩ := (LinearMap.ker f).ne_bot_iff.1 (LinearMap.ker_ne_bot_of_finrank_lt hlt)
  refine ⟨v, hv0, ∑ k, v k * x i0 k, fun i _ => ?_⟩
  by_cases hi : i = i0
  · rw [hi]
  · have := congrFun (LinearMap.mem_ker.1 hv) ⟨i, hi⟩
    simp only [f, LinearMap.pi_apply, LinearMap.sum_apply, LinearMap.smul_apply, LinearMap.proj_apply, smul_eq_mul, Pi.zero_apply, sub_mul, sum_sub_distrib] at this
    have e : ∀ i, ∑ k, v k * x i k = ∑ k, x i k * v k := fun i => sum_congr rfl fun k _ => mul_comm _ _
    rw [e, e]
    linarith

example := C105_few_rows (n := 2) (d := 2) le_rfl (w := ![1, 1]) (by intro i; fin_cases i <;> norm_num) ⟨0, 1, by decide, by norm_num, by norm_num⟩ ![![1, 2], ![3, 5]]

/-- C105: the weights of the estimate count only up to a common factor. -/
theorem C105_weight_scale (W : Fin d → Fin d → ℝ) (w : Fin n → ℝ) {a : ℝ} (ha : a ≠ 0) (x : Fin n → Vec d) :
    kdeCov (fun i => a * w i) x = kdeCov w x ∧ kdeFactor (fun i => a * w i) d = kdeFactor w d ∧ kdeLogpdf W (fun i => a * w i) x = kdeLogpdf W w x := by
  have h : kdeWeights (fun i => a * w i) = kdeWeights w := by
    funext i
    simp only [kdeWeights, ← mul_sum]
    exact mul_div_mul_left _ _ ha
  refine ⟨?_, ?_, ?_⟩
  · unfold kdeCov kdeMean; rw [h]
  · unfold kdeFactor; rw [h]
  · unfold kdeLogpdf; rw [h]

example := C105_weight_scale (n := 2) (d := 2) (fun k l => if k = l then 2 else 0) ![1, 2] (a := 3) (by norm_num) ![![0, 0], ![1, 3]]

end Coreax
