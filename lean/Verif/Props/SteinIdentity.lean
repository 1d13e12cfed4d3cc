import Verif.Lemmas.SteinMean
import Verif.Props.NormalisedKernel
import Mathlib.Algebra.Order.Chebyshev
import Mathlib.Probability.Independence.Basic
import Mathlib.MeasureTheory.Integral.Prod

/-!
# C81: the Stein identity and what the kernel Stein discrepancy measures
-/

namespace Coreax

open Finset MeasureTheory Spec

variable {d : ℕ}

/-- The squared distance, in the space of a kernel `k`, between the mean embedding of the density `p` and the mean embedding of the
points `y` with weights `w` (normalised by their sum): the squared maximum mean discrepancy between the two. -/
noncomputable def Spec.sqMmdTo (k : Vec d → Vec d → ℝ) (p : Vec d → ℝ) {m : ℕ} (y : Fin m → Vec d) (w : Fin m → ℝ) : ℝ :=
  (∑ i, ∑ j, w i * w j * k (y i) (y j)) / (∑ i, w i) ^ 2 - 2 * ((∑ i, w i * ∫ z, p z * k (y i) z) / ∑ i, w i)
    + ∫ z, p z * ∫ z', p z' * k z z'

/-- **C81.** The Stein identity: under the density whose score the Stein kernel is built from, the Stein kernel has mean zero in either
argument, whatever the other argument. -/
theorem C81_stein_identity (K : KExpr d) (hc : K.check = .ok ()) (hs : K.Smooth) (hb : K.Bounded) {p : Vec d → ℝ} {ψ : Vec d → Vec d}
    (h : Spec.IsScore p ψ) (hp : Integrable p) (hψ : ∀ i, Integrable fun y => p y * ψ y i) (x : Vec d) :
    Integrable (fun y => p y * (KExpr.stein K ψ).sem.compute x y) ∧ ∫ y, p y * (KExpr.stein K ψ).sem.compute x y = 0 ∧
      Integrable (fun y => p y * (KExpr.stein K ψ).sem.compute y x) ∧ ∫ y, p y * (KExpr.stein K ψ).sem.compute y x = 0 := by
  obtain ⟨h1, h2⟩ := SteinMean.stein_mean K hc hs hb h hp hψ x
  refine ⟨h1, h2, ?_⟩
  simp only [C35_symmetric K ψ hb.noStein _ x]
  exact ⟨h1, h2⟩

/-- **C81.** So the kernel Stein discrepancy is the maximum mean discrepancy, for the Stein kernel, between the weighted points and the
density itself, although the density is never evaluated. -/
theorem C81_ksd_is_mmd (big : ℝ) (K : KExpr d) (hc : K.check = .ok ()) (hd : K.PsdDomain) (hs : K.Smooth) (hb : K.Bounded) {p : Vec d → ℝ}
    {ψ : Vec d → Vec d} (h : Spec.IsScore p ψ) (hp : Integrable p) (hψ : ∀ i, Integrable fun y => p y * ψ y i) {m : ℕ} (hm : 0 < m)
    (y : Data m (Vec d) ℝ) (hy : ∑ i, y.weights i ≠ 0) (bs : PyTree (Option ℤ)) (hbs : ValidBlock bs) :
    ksdCompute big (KExpr.stein K ψ).sem.compute y bs none none
      = .ok (Real.sqrt (Spec.sqMmdTo (KExpr.stein K ψ).sem.compute p y.data y.weights)) := by
  rw [C35_ksd_of_kernel big K ψ hc hd hs hm y hy bs hbs]
  congr 2
  simp only [Spec.sqMmdTo, (C81_stein_identity K hc hs hb h hp hψ _).2.1, mul_zero, sum_const_zero, zero_div, integral_zero, sub_zero, add_zero,
    avg]
  have e : ∀ i, y.weights i * ((∑ j, y.weights j * (KExpr.stein K ψ).sem.compute (y.data i) (y.data j)) / ∑ j, y.weights j) =
      (∑ j, y.weights i * y.weights j * (KExpr.stein K ψ).sem.compute (y.data i) (y.data j)) / ∑ j, y.weights j := fun i => by
    rw [mul_div_assoc', mul_sum]
    congr 1
    exact sum_congr rfl fun j _ => by ring
  simp only [e, ← sum_div, div_div, pow_two]

/-- **C81.** The witness function of every weighted set of points has mean zero under the density, so adding it to an integrand leaves
the integral unchanged. -/
theorem C81_control_variate (K : KExpr d) (hc : K.check = .ok ()) (hs : K.Smooth) (hb : K.Bounded) {p : Vec d → ℝ} {ψ : Vec d → Vec d}
    (h : Spec.IsScore p ψ) (hp : Integrable p) (hψ : ∀ i, Integrable fun y => p y * ψ y i) {m : ℕ} (y : Fin m → Vec d) (w : Fin m → ℝ)
    {f : Vec d → ℝ} (hf : Integrable fun z => p z * f z) :
    ∫ z, p z * (f z + ∑ i, w i * (KExpr.stein K ψ).sem.compute (y i) z) = ∫ z, p z * f z := by
  have h1 : ∀ i, Integrable fun z => w i * (p z * (KExpr.stein K ψ).sem.compute (y i) z) := fun i =>
    (C81_stein_identity K hc hs hb h hp hψ (y i)).1.const_mul _
  have he : ∀ z, p z * (f z + ∑ i, w i * (KExpr.stein K ψ).sem.compute (y i) z) =
      p z * f z + ∑ i, w i * (p z * (KExpr.stein K ψ).sem.compute (y i) z) := fun z => by
    rw [mul_add, mul_sum]
    congr 1
    exact sum_congr rfl fun i _ => by ring
  simp only [he]
  rw [integral_add hf (integrable_finsetSum _ fun i _ => h1 i), integral_finsetSum _ fun i _ => h1 i]
  simp only [integral_const_mul, (C81_stein_identity K hc hs hb h hp hψ _).2.1, mul_zero, sum_const_zero, add_zero]

namespace SteinMean

/-- The score of a Gaussian mixture with one bandwidth. -/
theorem kde_isScore {n : ℕ} (hn : 0 < n) {l : ℝ} (x : Fin n → Vec d) {t : Vec d → Vec d}
    (ht : ∀ z, IsGrad (fun z => Real.log (1 * ∑ j, Real.exp (-(∑ i, (z i - x j i) ^ 2) / (2 * l ^ 2)))) (t z) z) :
    Spec.IsScore (fun z => ∑ j, Real.exp (-(∑ i, (z i - x j i) ^ 2) / (2 * l ^ 2))) t := by
  have hpos : ∀ z : Vec d, 0 < ∑ j, Real.exp (-(∑ i, (z i - x j i) ^ 2) / (2 * l ^ 2)) := fun z =>
    sum_pos (fun _ _ => Real.exp_pos _) ⟨⟨0, hn⟩, mem_univ _⟩
  refine ⟨fun z => (hpos z).le, fun z => ?_⟩
  refine ((ht z).scalar (Real.hasDerivAt_exp _)).congr (fun z => ?_) fun i => ?_
  · rw [one_mul, Real.exp_log (hpos z)]
  · rw [one_mul, Real.exp_log (hpos z)]

theorem exp_halves {l r : ℝ} (hl : 0 < l) (h0 : 0 ≤ r) :
    (1 + r) * Real.exp (-r / (2 * l ^ 2)) ≤ (1 + 4 * l ^ 2) * Real.exp (-r / (2 * (2 * l) ^ 2)) := by
  have hb : 1 + r ≤ (1 + 4 * l ^ 2) * Real.exp (r / (4 * l ^ 2)) := by
    have h1 := Real.add_one_le_exp (r / (4 * l ^ 2))
    have h2 : r = 4 * l ^ 2 * (r / (4 * l ^ 2)) := by field_simp
    have h3 : 0 ≤ r / (4 * l ^ 2) := by positivity
    have h4 : (0 : ℝ) < 4 * l ^ 2 := by positivity
    generalize 4 * l ^ 2 = c at *
    generalize r / c = q at *
    nlinarith
  have hc : Real.exp (r / (4 * l ^ 2)) * Real.exp (-r / (2 * l ^ 2)) ≤ Real.exp (-r / (2 * (2 * l) ^ 2)) := by
    rw [← Real.exp_add]
    apply Real.exp_le_exp.2
    have e : -r / (2 * (2 * l) ^ 2) - (r / (4 * l ^ 2) + -r / (2 * l ^ 2)) = r / (8 * l ^ 2) := by
      field_simp
      ring
    have : 0 ≤ r / (8 * l ^ 2) := by positivity
    linarith
  calc (1 + r) * Real.exp (-r / (2 * l ^ 2)) ≤ (1 + 4 * l ^ 2) * Real.exp (r / (4 * l ^ 2)) * Real.exp (-r / (2 * l ^ 2)) :=
        mul_le_mul_of_nonneg_right hb (Real.exp_pos _).le
    _ = (1 + 4 * l ^ 2) * (Real.exp (r / (4 * l ^ 2)) * Real.exp (-r / (2 * l ^ 2))) := by ring
    _ ≤ _ := mul_le_mul_of_nonneg_left hc (by positivity)

theorem coord_sq_le (x y : Vec d) (i : Fin d) : (y i - x i) ^ 2 ≤ sqDist x y := by
  have := single_le_sum (f := fun i => (x i - y i) * (x i - y i)) (fun i _ => mul_self_nonneg _) (mem_univ i)
  calc (y i - x i) ^ 2 = (x i - y i) * (x i - y i) := by ring
    _ ≤ _ := this

theorem exp_coord {l : ℝ} (hl : 0 < l) (x y : Vec d) (i : Fin d) :
    |y i - x i| * Real.exp (-sqDist x y / (2 * l ^ 2)) ≤ (1 + 4 * l ^ 2) * Real.exp (-sqDist x y / (2 * (2 * l) ^ 2)) := by
  refine le_trans (mul_le_mul_of_nonneg_right ?_ (Real.exp_pos _).le) (exp_halves hl (sqDist_nonneg x y))
  have := coord_sq_le x y i
  rw [abs_le]
  constructor <;> nlinarith [sq_nonneg (y i - x i - 1), sq_nonneg (y i - x i + 1)]

theorem sqDist_pow (x z : Vec d) : ∑ i, (z i - x i) ^ 2 = sqDist x z := sum_congr rfl fun i _ => by ring

/-- The score of a Gaussian mixture, multiplied by its density. -/
theorem kde_score_eq {n : ℕ} {l : ℝ} (hl : 0 < l) (x : Fin n → Vec d) {t : Vec d → Vec d}
    (h : Spec.IsScore (fun z => ∑ j, Real.exp (-(∑ i, (z i - x j i) ^ 2) / (2 * l ^ 2))) t) (i : Fin d) (z : Vec d) :
    (∑ j, Real.exp (-(∑ i, (z i - x j i) ^ 2) / (2 * l ^ 2))) * t z i =
      ∑ j, -((z i - x j i) / l ^ 2) * Real.exp (-sqDist (x j) z / (2 * l ^ 2)) := by
  have h1 : IsGrad (fun z => ∑ j, Real.exp (-(∑ i, (z i - x j i) ^ 2) / (2 * l ^ 2)))
      (fun i => ∑ j, -((z i - x j i) / l ^ 2) * Real.exp (-sqDist (x j) z / (2 * l ^ 2))) z := by
    have hj : ∀ j, IsGrad (fun z : Vec d => Real.exp (-sqDist (x j) z / (2 * l ^ 2)))
        (fun i => -((z i - x j i) / l ^ 2) * Real.exp (-sqDist (x j) z / (2 * l ^ 2))) z := fun j => by
      have h2 : HasDerivAt (fun r : ℝ => Real.exp (-r / (2 * l ^ 2))) (Real.exp (-sqDist (x j) z / (2 * l ^ 2)) * (-1 / (2 * l ^ 2)))
          (sqDist (x j) z) := ((hasDerivAt_id (sqDist (x j) z)).neg.div_const (2 * l ^ 2)).exp
      refine ((isGrad_sqDist_right (x j)).scalar h2).congr (fun _ => rfl) fun i => ?_
      field_simp
      ring
    refine (IsGrad.sum (x := z) univ fun j _ => hj j).congr (fun z => ?_) fun i => ?_
    · simp only [sqDist_pow]
    · rfl
  exact congrFun ((h.2 z).unique h1) i

theorem kde_integrable {n : ℕ} {l : ℝ} (hl : 0 < l) (x : Fin n → Vec d) {t : Vec d → Vec d}
    (h : Spec.IsScore (fun z => ∑ j, Real.exp (-(∑ i, (z i - x j i) ^ 2) / (2 * l ^ 2))) t) :
    Integrable (fun z : Vec d => ∑ j, Real.exp (-(∑ i, (z i - x j i) ^ 2) / (2 * l ^ 2))) ∧
      ∀ i, Integrable fun z : Vec d => (∑ j, Real.exp (-(∑ i, (z i - x j i) ^ 2) / (2 * l ^ 2))) * t z i := by
  have hint : ∀ j, Integrable fun z : Vec d => Real.exp (-sqDist (x j) z / (2 * l ^ 2)) := fun j => Normalised.integrable_sqExp hl (x j)
  refine ⟨by simp only [sqDist_pow]; exact integrable_finsetSum _ fun j _ => hint j, fun i => ?_⟩
  have hg := kde_score_eq hl x h i
  simp only [hg]
  refine integrable_finsetSum _ fun j _ => ?_
  refine Integrable.mono' ((Normalised.integrable_sqExp (show 0 < 2 * l by positivity) (x j)).const_mul ((1 + 4 * l ^ 2) / l ^ 2)) ?_ ?_
  · refine Continuous.aestronglyMeasurable ?_
    unfold sqDist
    fun_prop
  · filter_upwards with z
    rw [Real.norm_eq_abs, abs_mul, abs_neg, abs_div, abs_of_pos (Real.exp_pos _), abs_of_pos (show 0 < l ^ 2 by positivity)]
    have := exp_coord hl (x j) z i
    calc |z i - x j i| / l ^ 2 * Real.exp (-sqDist (x j) z / (2 * l ^ 2)) = |z i - x j i| * Real.exp (-sqDist (x j) z / (2 * l ^ 2)) / l ^ 2 := by ring
      _ ≤ (1 + 4 * l ^ 2) * Real.exp (-sqDist (x j) z / (2 * (2 * l) ^ 2)) / l ^ 2 := by gcongr
      _ = _ := by ring

end SteinMean

/-- **C81.** The kernel to which a kernel is converted without score matching has mean zero under the Gaussian kernel density estimate of the
data with the kernel's length scale. -/
theorem C81_kde (big : ℝ) {n : ℕ} (hn : 0 < n) (data : Fin n → Vec d) (K : KExpr d) (hc : K.check = .ok ()) (hs : K.Smooth) (hb : K.Bounded)
    (hl : 0 < K.lengthScale) :
    ∃ t, convertStein big data K none = .ok (.stein K t) ∧ ∀ x,
      ∫ z, (∑ j, Real.exp (-(∑ i, (z i - data j i) ^ 2) / (2 * K.lengthScale ^ 2))) * (KExpr.stein K t).sem.compute x z = 0 := by
  obtain ⟨t, h1, h2⟩ := (C42_kde_match big K.lengthScale hl hn data 1 one_pos).2 K
    (by rintro b t rfl; exact hb.noStein.elim) hc rfl
  have h3 := SteinMean.kde_isScore hn data h2
  obtain ⟨h4, h5⟩ := SteinMean.kde_integrable hl data h3
  exact ⟨t, h1, fun x => (C81_stein_identity K hc hs hb h3 h4 h5 x).2.1⟩

/-! ### Independent samples -/

namespace SteinMean

theorem measurable_stein (K : KExpr d) (hc : K.check = .ok ()) (hs : K.Smooth) {ψ : Vec d → Vec d} (hψ : Measurable ψ) :
    Measurable fun q : Vec d × Vec d => (KExpr.stein K ψ).sem.compute q.1 q.2 := by
  have hk := hs.contDiff hc
  have hkd : Differentiable ℝ fun q : Vec d × Vec d => K.sem.compute q.1 q.2 := hk.differentiable (by norm_num)
  have hY : ∀ i, (fun q : Vec d × Vec d => K.sem.gradY q.1 q.2 i) =
      fun q => fderiv ℝ (fun q : Vec d × Vec d => K.sem.compute q.1 q.2) q (0, Pi.single i 1) := fun i => by
    funext q
    have h1 : IsGrad (fun y' => K.sem.compute q.1 y') (K.sem.gradY q.1 q.2) q.2 := (gradOk_of_smooth K q.1 q.2 hc (hs.smoothAt _ _)).right
    have h2 := HasFDerivAt.comp (g := fun q : Vec d × Vec d => K.sem.compute q.1 q.2) (f := fun y => (q.1, y)) q.2 (hkd q).hasFDerivAt (hasFDerivAt_prodMk_right (𝕜 := ℝ) q.1 q.2)
    have h3 := congrFun (congrArg DFunLike.coe (HasFDerivAt.unique h1 h2)) (Pi.single i 1)
    rw [Spec.gradMap_single] at h3
    rw [h3]
    rfl
  have hX : ∀ i, (fun q : Vec d × Vec d => K.sem.gradX q.1 q.2 i) =
      fun q => fderiv ℝ (fun q : Vec d × Vec d => K.sem.compute q.1 q.2) q (Pi.single i 1, 0) := fun i => by
    funext q
    have h1 : IsGrad (fun x' => K.sem.compute x' q.2) (K.sem.gradX q.1 q.2) q.1 := (gradOk_of_smooth K q.1 q.2 hc (hs.smoothAt _ _)).left
    have h2 := HasFDerivAt.comp (g := fun q : Vec d × Vec d => K.sem.compute q.1 q.2) (f := fun x => (x, q.2)) q.1 (hkd q).hasFDerivAt (hasFDerivAt_prodMk_left (𝕜 := ℝ) q.1 q.2)
    have h3 := congrFun (congrArg DFunLike.coe (HasFDerivAt.unique h1 h2)) (Pi.single i 1)
    rw [Spec.gradMap_single] at h3
    rw [h3]
    rfl
  have mX : ∀ i, Measurable fun q : Vec d × Vec d => K.sem.gradX q.1 q.2 i := fun i => by
    rw [hX]
    exact measurable_fderiv_apply_const ℝ _ _
  have mY : ∀ i, Measurable fun q : Vec d × Vec d => K.sem.gradY q.1 q.2 i := fun i => by
    rw [hY]
    exact measurable_fderiv_apply_const ℝ _ _
  have hYd : ∀ i, Differentiable ℝ fun q : Vec d × Vec d => K.sem.gradY q.1 q.2 i := fun i => by
    rw [hY]
    have : ContDiff ℝ 1 (fderiv ℝ fun q : Vec d × Vec d => K.sem.compute q.1 q.2) := hk.fderiv_right (by norm_num)
    exact (this.clm_apply contDiff_const).differentiable (by norm_num)
  have hdiv : (fun q : Vec d × Vec d => K.sem.div q.1 q.2) =
      fun q => ∑ i, fderiv ℝ (fun q : Vec d × Vec d => K.sem.gradY q.1 q.2 i) q (Pi.single i 1, 0) := by
    funext q
    obtain ⟨G, h1, h2⟩ := isDiv_of_smooth K q.1 q.2 hc (hs.smoothAt _ _) (hs.divSmoothAt _ _)
    rw [h2]
    refine sum_congr rfl fun i _ => ?_
    have h4 := HasFDerivAt.comp (g := fun q : Vec d × Vec d => K.sem.gradY q.1 q.2 i) (f := fun x => (x, q.2)) q.1 (hYd i q).hasFDerivAt (hasFDerivAt_prodMk_left (𝕜 := ℝ) q.1 q.2)
    have h3 := congrFun (congrArg DFunLike.coe (HasFDerivAt.unique (h1 i) h4)) (Pi.single i 1)
    rw [Spec.gradMap_single] at h3
    rw [h3]
    rfl
  have mD : Measurable fun q : Vec d × Vec d => K.sem.div q.1 q.2 := by
    rw [hdiv]
    exact Finset.measurable_sum _ fun i _ => measurable_fderiv_apply_const ℝ _ _
  have m1 : ∀ i, Measurable fun q : Vec d × Vec d => ψ q.1 i := fun i => (measurable_pi_iff.1 hψ i).comp measurable_fst
  have m2 : ∀ i, Measurable fun q : Vec d × Vec d => ψ q.2 i := fun i => (measurable_pi_iff.1 hψ i).comp measurable_snd
  show Measurable fun q : Vec d × Vec d => K.sem.div q.1 q.2 + ∑ i, K.sem.gradX q.1 q.2 i * ψ q.2 i + ∑ i, K.sem.gradY q.1 q.2 i * ψ q.1 i
    + K.sem.compute q.1 q.2 * ∑ i, ψ q.1 i * ψ q.2 i
  refine ((mD.add ?_).add ?_).add (hk.continuous.measurable.mul ?_)
  · exact Finset.measurable_sum _ fun i _ => (mX i).mul (m2 i)
  · exact Finset.measurable_sum _ fun i _ => (mY i).mul (m1 i)
  · exact Finset.measurable_sum _ fun i _ => (m1 i).mul (m2 i)

theorem stein_bound (K : KExpr d) (hc : K.check = .ok ()) (hs : K.Smooth) (hb : K.Bounded) (ψ : Vec d → Vec d) :
    ∃ D, ∀ x y, |(KExpr.stein K ψ).sem.compute x y| ≤ D * ((1 + ∑ i, |ψ x i|) * (1 + ∑ i, |ψ y i|)) := by
  obtain ⟨C, hB⟩ := bounded_bdd K hc hb
  have hsym := symOk_of_noStein K hb.noStein
  have hC : 0 ≤ C := (hB 0).nonneg
  refine ⟨(d + 3) * C, fun x y => ?_⟩
  have hcmp : |K.sem.compute x y| ≤ C := (hB x y).1
  have hX : ∀ i, |K.sem.gradX x y i| ≤ C := (hB x y).2.1
  have hY : ∀ i, |K.sem.gradY x y i| ≤ C := fun i => by
    rw [← hsym.grad y x]
    exact (hB y x).2.1 i
  have hD : |K.sem.div x y| ≤ d * C := by
    obtain ⟨-, -, g, G, -, a4, -, a6⟩ := hB x y
    have h1 := isDiv_of_smooth K y x hc (hs.smoothAt y x) (hs.divSmoothAt y x)
    have h2 : IsDiv (fun y' => K.sem.gradY y' x) (∑ i, G i i) y :=
      (show IsDiv (fun y' => K.sem.gradX x y') (∑ i, G i i) y from ⟨G, a4, rfl⟩).congr (fun z i => by rw [hsym.grad x z]) rfl
    rw [hsym.div x y, h1.unique h2]
    refine (abs_sum_le_sum_abs _ _).trans ((sum_le_sum fun i _ => a6 i i).trans ?_)
    simp
  obtain ⟨A, hA⟩ : ∃ A, A = ∑ i, |ψ x i| := ⟨_, rfl⟩
  obtain ⟨B, hBd⟩ : ∃ B, B = ∑ i, |ψ y i| := ⟨_, rfl⟩
  have hA0 : 0 ≤ A := by rw [hA]; positivity
  have hB0 : 0 ≤ B := by rw [hBd]; positivity
  have t1 : |vdot (K.sem.gradX x y) (ψ y)| ≤ C * B := by
    rw [hBd, mul_sum]
    exact (abs_sum_le_sum_abs _ _).trans (sum_le_sum fun i _ => abs_mul_le (hX i) le_rfl)
  have t2 : |vdot (K.sem.gradY x y) (ψ x)| ≤ C * A := by
    rw [hA, mul_sum]
    exact (abs_sum_le_sum_abs _ _).trans (sum_le_sum fun i _ => abs_mul_le (hY i) le_rfl)
  have t3 : |vdot (ψ x) (ψ y)| ≤ A * B := by
    rw [hA, sum_mul]
    refine (abs_sum_le_sum_abs _ _).trans (sum_le_sum fun i _ => abs_mul_le le_rfl ?_)
    rw [hBd]
    exact single_le_sum (f := fun i => |ψ y i|) (fun _ _ => abs_nonneg _) (mem_univ i)
  have t4 : |K.sem.compute x y * vdot (ψ x) (ψ y)| ≤ C * (A * B) := abs_mul_le hcmp t3
  rw [← hA, ← hBd]
  show |K.sem.div x y + vdot (K.sem.gradX x y) (ψ y) + vdot (K.sem.gradY x y) (ψ x) + K.sem.compute x y * vdot (ψ x) (ψ y)| ≤ _
  have e1 := abs_add_le (K.sem.div x y + vdot (K.sem.gradX x y) (ψ y) + vdot (K.sem.gradY x y) (ψ x)) (K.sem.compute x y * vdot (ψ x) (ψ y))
  have e2 := abs_add_le (K.sem.div x y + vdot (K.sem.gradX x y) (ψ y)) (vdot (K.sem.gradY x y) (ψ x))
  have e3 := abs_add_le (K.sem.div x y) (vdot (K.sem.gradX x y) (ψ y))
  have hdC : 0 ≤ (d : ℝ) * C := by positivity
  have p1 : 0 ≤ C * A := by positivity
  have p2 : 0 ≤ C * B := by positivity
  have p3 : 0 ≤ C * (A * B) := by positivity
  have p4 : 0 ≤ (d : ℝ) * C * A := by positivity
  have p5 : 0 ≤ (d : ℝ) * C * B := by positivity
  have p6 : 0 ≤ (d : ℝ) * C * (A * B) := by positivity
  have e4 : (d + 3 : ℝ) * C * ((1 + A) * (1 + B)) = (d : ℝ) * C + (d : ℝ) * C * A + (d : ℝ) * C * B + (d : ℝ) * C * (A * B)
    + 3 * C + 3 * (C * A) + 3 * (C * B) + 3 * (C * (A * B)) := by ring
  rw [e4]
  linarith

open ProbabilityTheory in
/-- The mean over independent draws of a kernel with mean zero. -/
theorem expected_avg {Ω : Type*} [MeasurableSpace Ω] {P : Measure Ω} [IsProbabilityMeasure P] {μ : Measure (Vec d)} {k : Vec d → Vec d → ℝ}
    (hk : Measurable fun q : Vec d × Vec d => k q.1 q.2) {n : ℕ} (X : Fin n → Ω → Vec d) (hX : ∀ i, Measurable (X i))
    (hlaw : ∀ i, P.map (X i) = μ) (hind : Pairwise fun i j => X i ⟂ᵢ[P] X j) (h0 : ∀ x, ∫ y, k x y ∂μ = 0)
    (hi : Integrable (fun q : Vec d × Vec d => k q.1 q.2) (μ.prod μ)) (hdiag : Integrable (fun x => k x x) μ) (i j : Fin n) :
    Integrable (fun ω => k (X i ω) (X j ω)) P ∧ ∫ ω, k (X i ω) (X j ω) ∂P = if i = j then ∫ x, k x x ∂μ else 0 := by
  by_cases hij : i = j
  · subst hij
    have hm : Measurable fun x => k x x := hk.comp (measurable_id.prodMk measurable_id)
    rw [if_pos rfl]
    constructor
    · have := (hlaw i ▸ hdiag : Integrable (fun x => k x x) (P.map (X i)))
      exact this.comp_measurable (hX i)
    · rw [← hlaw i, integral_map (hX i).aemeasurable hm.aestronglyMeasurable]
  · rw [if_neg hij]
    have hp : P.map (fun ω => (X i ω, X j ω)) = μ.prod μ := by
      rw [(indepFun_iff_map_prod_eq_prod_map_map (hX i).aemeasurable (hX j).aemeasurable).1 (hind hij), hlaw i, hlaw j]
    have hprob : IsProbabilityMeasure μ := by
      rw [← hlaw i]
      exact Measure.isProbabilityMeasure_map (hX i).aemeasurable
    constructor
    · have := (hp ▸ hi : Integrable (fun q : Vec d × Vec d => k q.1 q.2) (P.map fun ω => (X i ω, X j ω)))
      exact this.comp_measurable ((hX i).prodMk (hX j))
    · have h1 : ∫ ω, k (X i ω) (X j ω) ∂P = ∫ q, k q.1 q.2 ∂(P.map fun ω => (X i ω, X j ω)) :=
        (integral_map ((hX i).prodMk (hX j)).aemeasurable hk.aestronglyMeasurable).symm
      rw [h1, hp, integral_prod _ hi]
      simp only [h0, integral_zero]

end SteinMean

open ProbabilityTheory in
/-- **C81.** The mean squared kernel Stein discrepancy of `n` (pairwise) independent draws from the density is `1 / n` times the mean of the
Stein kernel on the diagonal: the discrepancy of a good sample tends to zero at the Monte Carlo rate. -/
theorem C81_expected (big : ℝ) (K : KExpr d) (hc : K.check = .ok ()) (hd : K.PsdDomain) (hs : K.Smooth) (hb : K.Bounded) {p : Vec d → ℝ}
    {ψ : Vec d → Vec d} (h : Spec.IsScore p ψ) (hp : Integrable p) (hψm : Measurable ψ) (hψ : ∀ i, Integrable fun y => p y * ψ y i)
    (hψ2 : ∀ i, Integrable fun y => p y * ψ y i ^ 2) {Ω : Type*} [MeasurableSpace Ω] {P : Measure Ω} [IsProbabilityMeasure P] {n : ℕ}
    (hn : 0 < n) (X : Fin n → Ω → Vec d) (hX : ∀ i, Measurable (X i))
    (hlaw : ∀ i, P.map (X i) = volume.withDensity fun x => ENNReal.ofReal (p x)) (hind : Pairwise fun i j => X i ⟂ᵢ[P] X j)
    (bs : PyTree (Option ℤ)) (hbs : ValidBlock bs) :
    ∃ r : Ω → ℝ, (∀ ω, ksdCompute big (KExpr.stein K ψ).sem.compute (Data.ofArray fun i => X i ω) bs none none = .ok (r ω)) ∧
      Integrable (fun ω => r ω ^ 2) P ∧ ∫ ω, r ω ^ 2 ∂P = 1 / n * ∫ x, p x * (KExpr.stein K ψ).sem.compute x x := by
  obtain ⟨k, hkd⟩ : ∃ k, k = (KExpr.stein K ψ).sem.compute := ⟨_, rfl⟩
  obtain ⟨μ, hμ⟩ : ∃ μ : Measure (Vec d), μ = volume.withDensity fun x => ENNReal.ofReal (p x) := ⟨_, rfl⟩
  rw [← hμ] at hlaw
  have hpm : Measurable p := (IsScore.diff h).continuous.measurable
  have hI : ∀ f : Vec d → ℝ, ∫ x, f x ∂μ = ∫ x, p x * f x := fun f => by
    rw [hμ, integral_withDensity_eq_integral_toReal_smul hpm.ennreal_ofReal (by filter_upwards with x using ENNReal.ofReal_lt_top)]
    exact integral_congr_ae (by filter_upwards with x; rw [ENNReal.toReal_ofReal (h.1 x), smul_eq_mul])
  have hInt : ∀ f : Vec d → ℝ, Integrable (fun x => p x * f x) → Integrable f μ := fun f hf => by
    rw [hμ, integrable_withDensity_iff_integrable_smul' hpm.ennreal_ofReal (by filter_upwards with x using ENNReal.ofReal_lt_top)]
    refine hf.congr (by filter_upwards with x; rw [ENNReal.toReal_ofReal (h.1 x), smul_eq_mul])
  have hprob : IsProbabilityMeasure μ := by
    rw [← hlaw ⟨0, hn⟩]
    exact Measure.isProbabilityMeasure_map (hX _).aemeasurable
  have hkm : Measurable fun q : Vec d × Vec d => k q.1 q.2 := hkd ▸ SteinMean.measurable_stein K hc hs hψm
  obtain ⟨D, hD⟩ := SteinMean.stein_bound K hc hs hb ψ
  rw [← hkd] at hD
  have hψi : ∀ i, Integrable (fun x => ψ x i) μ := fun i => hInt _ (hψ i)
  have hS : Integrable (fun x => 1 + ∑ i, |ψ x i|) μ := (integrable_const 1).add (integrable_finsetSum _ fun i _ => (hψi i).abs)
  have hk2 : Integrable (fun q : Vec d × Vec d => k q.1 q.2) (μ.prod μ) := by
    refine Integrable.mono' ((hS.mul_prod hS).const_mul D) hkm.aestronglyMeasurable ?_
    filter_upwards with q
    exact hD q.1 q.2
  have hS2 : Integrable (fun x => (1 + ∑ i, |ψ x i|) * (1 + ∑ i, |ψ x i|)) μ := by
    have hm : ∀ i, Measurable fun x => ψ x i := fun i => measurable_pi_iff.1 hψm i
    have hsq : ∀ i, Integrable (fun x => ψ x i ^ 2) μ := fun i => hInt _ (hψ2 i)
    refine Integrable.mono' (((integrable_const (1 : ℝ)).add (integrable_finsetSum univ fun i _ => hsq i)).const_mul (d + 1 : ℝ)) ?_ ?_
    · have : Measurable fun x => 1 + ∑ i, |ψ x i| := (Finset.measurable_sum _ fun i _ => continuous_abs.measurable.comp (hm i)).const_add 1
      exact (this.mul this).aestronglyMeasurable
    · filter_upwards with x
      have h1 : (1 + ∑ i, |ψ x i|) ^ 2 ≤ (d + 1) * (1 + ∑ i, ψ x i ^ 2) := by
        have := sq_sum_le_card_mul_sum_sq (s := (univ : Finset (Option (Fin d)))) (f := fun o => o.elim 1 fun i => |ψ x i|)
        simp only [Fintype.sum_option, Option.elim, card_univ, Fintype.card_option, Fintype.card_fin, sq_abs, one_pow, Nat.cast_add,
          Nat.cast_one] at this
        exact this
      rw [Real.norm_eq_abs, abs_mul_self, ← pow_two]
      simpa using h1
  have hdiag : Integrable (fun x => k x x) μ := by
    refine Integrable.mono' (hS2.const_mul D) (hkm.comp (measurable_id.prodMk measurable_id)).aestronglyMeasurable ?_
    filter_upwards with x
    exact hD x x
  have h0 : ∀ x, ∫ y, k x y ∂μ = 0 := fun x => by
    rw [hI, hkd]
    exact (C81_stein_identity K hc hs hb h hp hψ x).2.1
  have hE := SteinMean.expected_avg hkm X hX hlaw hind h0 hk2 hdiag
  have hn' : (n : ℝ) ≠ 0 := by exact_mod_cast hn.ne'
  have hw : ∀ ω, ∑ i, (Data.ofArray (K := ℝ) fun i => X i ω).weights i ≠ 0 := fun ω => by
    simpa [Data.ofArray] using hn'
  refine ⟨_, fun ω => (C35_ksd_norm big _ (C35_psd K ψ hc hd hs) hn (Data.ofArray fun i => X i ω) (hw ω) bs hbs).1, ?_⟩
  have hr : ∀ ω, Real.sqrt (avg (Data.ofArray (K := ℝ) fun i => X i ω).weights fun i => avg (Data.ofArray (K := ℝ) fun i => X i ω).weights fun j =>
      (KExpr.stein K ψ).sem.compute ((Data.ofArray (K := ℝ) fun i => X i ω).data i) ((Data.ofArray (K := ℝ) fun i => X i ω).data j)) ^ 2 =
      1 / (n : ℝ) ^ 2 * ∑ i, ∑ j, k (X i ω) (X j ω) := fun ω => by
    rw [Real.sq_sqrt (C35_ksd_norm big _ (C35_psd K ψ hc hd hs) hn (Data.ofArray fun i => X i ω) (hw ω) bs hbs).2.1]
    simp only [avg, Data.ofArray, one_mul, sum_const, card_univ, Fintype.card_fin, nsmul_eq_mul, mul_one, ← sum_div, hkd]
    field_simp
  simp only [hr]
  have hsum : ∀ i, Integrable (fun ω => ∑ j, k (X i ω) (X j ω)) P := fun i => integrable_finsetSum _ fun j _ => (hE i j).1
  refine ⟨(integrable_finsetSum _ fun i _ => hsum i).const_mul _, ?_⟩
  rw [integral_const_mul, integral_finsetSum _ fun i _ => hsum i]
  have : ∀ i, ∫ ω, ∑ j, k (X i ω) (X j ω) ∂P = ∫ x, p x * k x x := fun i => by
    rw [integral_finsetSum _ fun j _ => (hE i j).1, sum_congr rfl fun j _ => (hE i j).2, sum_ite_eq, if_pos (mem_univ i), hI]
  simp only [this, sum_const, card_univ, Fintype.card_fin, nsmul_eq_mul, ← hkd]
  field_simp

/-- **C81.** The discrepancy of a data set to its own kernel density estimate is not zero: one data point has discrepancy `sqrt(d s) / l`. -/
theorem C81_self (big l s : ℝ) (x : Vec d) (hc : (KExpr.squaredExponential l s : KExpr d).check = .ok ()) (bs : PyTree (Option ℤ))
    (hbs : ValidBlock bs) :
    ∃ t, convertStein big (fun _ : Fin 1 => x) (.squaredExponential l s) none = .ok (.stein (.squaredExponential l s) t) ∧
      ksdCompute big (KExpr.stein (.squaredExponential l s) t).sem.compute (Data.ofArray fun _ : Fin 1 => x) bs none none
        = .ok (Real.sqrt (d * s) / l) := by
  have hl := checkPos_ok (bind_ok hc).1
  have hs := checkPos_ok (bind_ok hc).2
  obtain ⟨t, h1, h2⟩ := (C42_kde_match big l hl one_pos (fun _ : Fin 1 => x) 1 one_pos).2 (.squaredExponential l s)
    (by intro b t h; cases h) hc rfl
  have ht : t x = 0 := by
    have hsc := (SteinMean.kde_isScore one_pos (fun _ : Fin 1 => x) h2).2 x
    have hg : IsGrad (fun z : Vec d => ∑ j : Fin 1, Real.exp (-(∑ i, (z i - x i) ^ 2) / (2 * l ^ 2))) (fun i => 0) x := by
      have h2 : HasDerivAt (fun r : ℝ => Real.exp (-r / (2 * l ^ 2))) (Real.exp (-sqDist x x / (2 * l ^ 2)) * (-1 / (2 * l ^ 2)))
          (sqDist x x) := ((hasDerivAt_id (sqDist x x)).neg.div_const (2 * l ^ 2)).exp
      refine ((isGrad_sqDist_right x).scalar h2).congr (fun z => ?_) fun i => ?_
      · rw [univ_unique, sum_singleton, SteinMean.sqDist_pow]
        rfl
      · simp
    funext i
    have h3 := congrFun (hsc.unique hg) i
    simp only [univ_unique, sum_singleton, sub_self, ne_eq, OfNat.ofNat_ne_zero, not_false_eq_true, zero_pow, sum_const_zero, neg_zero, zero_div,
      Real.exp_zero, one_mul] at h3
    exact h3
  refine ⟨t, h1, ?_⟩
  have hv : (KExpr.stein (.squaredExponential l s) t).sem.compute x x = d * s / l ^ 2 := by
    simp [KExpr.sem, KSem.ofCompute, steinCompute, squaredExponentialSem, vdot, ht, sqDist]
    ring
  rw [(C35_ksd_norm big _ (C35_psd _ t hc trivial trivial) one_pos (Data.ofArray fun _ : Fin 1 => x) (by simp [Data.ofArray]) bs hbs).1]
  congr 1
  simp only [avg, Data.ofArray, univ_unique, sum_singleton, one_mul, div_one, hv]
  rw [Real.sqrt_div' _ (by positivity), Real.sqrt_sq hl.le]

/-! ### A concrete case: the standard Gaussian, its score and independent draws from it -/

namespace SteinMean

/-- The density of the standard Gaussian. -/
noncomputable def gauss (z : Vec d) : ℝ := 1 / (Real.sqrt (2 * Real.pi) * 1) ^ d * Real.exp (-sqDist 0 z / (2 * 1 ^ 2))

theorem gauss_isScore : Spec.IsScore (gauss : Vec d → ℝ) fun z i => -z i := by
  refine ⟨fun z => by unfold gauss; positivity, fun z => ?_⟩
  have h2 : HasDerivAt (fun r : ℝ => Real.exp (-r / (2 * 1 ^ 2))) (Real.exp (-sqDist 0 z / (2 * 1 ^ 2)) * (-1 / (2 * 1 ^ 2)))
      (sqDist 0 z) := ((hasDerivAt_id (sqDist 0 z)).neg.div_const (2 * 1 ^ 2)).exp
  refine (((isGrad_sqDist_right 0).scalar h2).const_mul (1 / (Real.sqrt (2 * Real.pi) * 1) ^ d)).congr (fun _ => rfl) fun i => ?_
  simp only [gauss, Pi.zero_apply]
  ring

theorem gauss_integrable : Integrable (gauss : Vec d → ℝ) := (Normalised.integrable_sqExp one_pos 0).const_mul _

theorem gauss_moments (f : Vec d → ℝ) (hf : Continuous f) (hb : ∀ z, |f z| ≤ 1 + sqDist 0 z) : Integrable fun z => gauss z * f z := by
  refine Integrable.mono' ((Normalised.integrable_sqExp (show (0 : ℝ) < 2 * 1 by norm_num) (0 : Vec d)).const_mul
    (1 / (Real.sqrt (2 * Real.pi) * 1) ^ d * (1 + 4 * 1 ^ 2))) ?_ ?_
  · refine Continuous.aestronglyMeasurable ?_
    unfold gauss sqDist
    fun_prop
  · filter_upwards with z
    have hc : 0 ≤ 1 / (Real.sqrt (2 * Real.pi) * 1) ^ d := by positivity
    have he := (Real.exp_pos (-sqDist 0 z / (2 * 1 ^ 2))).le
    rw [Real.norm_eq_abs, abs_mul, abs_of_nonneg (gauss_isScore.1 z), gauss, mul_assoc, mul_assoc]
    refine mul_le_mul_of_nonneg_left ?_ hc
    have := exp_halves one_pos (sqDist_nonneg 0 z)
    have h2 := mul_le_mul_of_nonneg_left (hb z) he
    linarith

theorem gauss_first (i : Fin d) : Integrable fun z : Vec d => gauss z * -z i :=
  gauss_moments (fun z => -z i) (by fun_prop) fun z => by
    have := coord_sq_le 0 z i
    simp only [Pi.zero_apply, sub_zero] at this
    rw [abs_le]
    constructor <;> nlinarith [sq_nonneg (z i - 1), sq_nonneg (z i + 1)]

theorem gauss_second (i : Fin d) : Integrable fun z : Vec d => gauss z * (-z i) ^ 2 :=
  gauss_moments (fun z => (-z i) ^ 2) (by fun_prop) fun z => by
    have := coord_sq_le 0 z i
    simp only [Pi.zero_apply, sub_zero] at this
    rw [neg_sq, abs_of_nonneg (sq_nonneg _)]
    linarith

/-- The measure with that density. -/
noncomputable def gaussMeasure : Measure (Vec d) := volume.withDensity fun x => ENNReal.ofReal (gauss x)

instance : IsProbabilityMeasure (gaussMeasure : Measure (Vec d)) := by
  constructor
  rw [gaussMeasure, withDensity_apply _ MeasurableSet.univ, Measure.restrict_univ, ← ofReal_integral_eq_lintegral_ofReal gauss_integrable
    (by filter_upwards with x using gauss_isScore.1 x)]
  have : ∫ x : Vec d, gauss x = 1 := by
    simp only [gauss]
    rw [integral_const_mul, Normalised.integral_sqExp one_pos]
    have := Real.pi_pos
    have : (Real.sqrt (2 * Real.pi) * 1) ^ d ≠ 0 := by positivity
    field_simp
  rw [this, ENNReal.ofReal_one]

end SteinMean

example (x : Vec 2) : ∫ y, SteinMean.gauss y * (KExpr.stein (.pcimq 1 2) fun z i => -z i).sem.compute x y = 0 :=
  (C81_stein_identity (.pcimq 1 2) (by norm_num [KExpr.check, checkPos, Bind.bind, Except.bind]) trivial trivial SteinMean.gauss_isScore
    SteinMean.gauss_integrable SteinMean.gauss_first x).2.1

example (y : Data 3 (Vec 2) ℝ) (hy : ∑ i, y.weights i ≠ 0) := C81_ksd_is_mmd 1 (.pcimq 1 2)
  (by norm_num [KExpr.check, checkPos, Bind.bind, Except.bind]) trivial trivial trivial SteinMean.gauss_isScore SteinMean.gauss_integrable
  SteinMean.gauss_first (by norm_num) y hy (.leaf none) (Or.inl rfl)

example (y : Fin 3 → Vec 2) := C81_control_variate (.pcimq 1 2) (by norm_num [KExpr.check, checkPos, Bind.bind, Except.bind]) trivial trivial
  SteinMean.gauss_isScore SteinMean.gauss_integrable SteinMean.gauss_first y (fun i => i) (SteinMean.gauss_second 0)

open ProbabilityTheory in
example := C81_expected 1 (.add (.pcimq 1 2) (.squaredExponential 1 1)) (by norm_num [KExpr.check, checkPos, Bind.bind, Except.bind]) ⟨trivial, trivial⟩
  ⟨trivial, trivial⟩ ⟨trivial, trivial⟩ (SteinMean.gauss_isScore (d := 2)) SteinMean.gauss_integrable (by fun_prop) SteinMean.gauss_first
  SteinMean.gauss_second (P := Measure.pi fun _ : Fin 5 => SteinMean.gaussMeasure) (by norm_num) (fun i ω => ω i) (fun i => measurable_pi_apply i)
  (fun i => (measurePreserving_eval _ i).map_eq)
  (fun i j hij => (iIndepFun_pi (X := fun _ : Fin 5 => (id : Vec 2 → Vec 2)) fun _ => aemeasurable_id).indepFun hij) (.leaf none) (Or.inl rfl)

example := C81_kde 1 (by norm_num : 0 < 2) ![![0, 1], ![2, 3]] (.pcimq 1 2) (by norm_num [KExpr.check, checkPos, Bind.bind, Except.bind]) trivial
  trivial (by norm_num [KExpr.lengthScale])

example := C81_self 1 2 3 ![0, 1] (by norm_num [KExpr.check, checkPos, Bind.bind, Except.bind]) (.leaf none) (Or.inl rfl)

end Coreax
