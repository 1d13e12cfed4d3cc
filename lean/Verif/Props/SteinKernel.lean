import Verif.Lemmas.PSD
import Verif.Props.Kernel
import Verif.Props.Metrics
import Verif.Model.Score
import Verif.Spec.Stein
import Mathlib.Analysis.SpecialFunctions.Log.Deriv

/-!
# C35: Stein kernel and kernel Stein discrepancy; C42: kernel density score
-/

set_option linter.unusedSectionVars false

namespace Coreax

open Spec Filter Topology
open scoped RealInnerProductSpace

variable {d : ℕ}

theorem smoothAt_eventually (K : KExpr d) (h : K.NoStein) {x y : Vec d} (hs : K.SmoothAt x y) :
    ∀ᶠ x' in 𝓝 x, K.SmoothAt x' y := by
  induction K with
  | exponential l s => exact isOpen_ne.mem_nhds hs
  | laplacian l s =>
    refine eventually_all.2 fun i => ?_
    exact ((continuous_apply i).continuousAt (x := x)).eventually (isOpen_ne.mem_nhds (hs i))
  | matern l s n => exact isOpen_ne.mem_nhds hs
  | periodic l s p =>
    have h1 : ∀ᶠ x' in 𝓝 x, x' ≠ y := isOpen_ne.mem_nhds hs.2
    exact h1.mono fun x' h => ⟨hs.1, h⟩
  | power k n ih => exact ih h hs
  | add a b iha ihb => exact (iha h.1 hs.1).and (ihb h.2 hs.2)
  | mul a b iha ihb => exact (iha h.1 hs.1).and (ihb h.2 hs.2)
  | stein k s => exact h.elim
  | rationalQuadratic l s a => exact Eventually.of_forall fun _ => hs
  | poisson r s => exact Eventually.of_forall fun _ => hs
  | _ => exact Eventually.of_forall fun _ => trivial

/-- **C35.** The Stein kernel is the Langevin-Stein operator applied to both arguments of the base kernel, for every
constructible base kernel, every score function, every dimension and every pair of points where the base kernel is
differentiable. -/
theorem C35_langevin (K : KExpr d) (score : Vec d → Vec d) (x y : Vec d) (hc : K.check = .ok ()) (hn : K.NoStein)
    (hs : K.SmoothAt x y) (hd : K.DivSmoothAt x y) :
    IsSteinOfKernel K.sem.compute score ((KExpr.stein K score).sem.compute x y) x y := by
  refine ⟨fun x' => K.sem.gradY x' y, ?_, K.sem.div x y + vdot (K.sem.gradX x y) (score y), ?_, ?_⟩
  · exact (smoothAt_eventually K hn hs).mono fun x' hx' => (gradOk_of_smooth K x' y hc hx').right
  · obtain ⟨G, hG, hv⟩ := isDiv_of_smooth K x y hc hs hd
    refine ⟨fun i j => G i j + K.sem.gradX x y j * score y i, fun i => ?_, ?_⟩
    · refine ((hG i).add ((gradOk_of_smooth K x y hc hs).left.const_mul (score y i))).congr (fun z => ?_) (fun j => ?_)
      · ring
      · ring
    · simp only [Finset.sum_add_distrib, ← hv, vdot]
  · simp only [KExpr.sem, KSem.ofCompute, steinCompute, vdot, add_mul, Finset.sum_add_distrib, Finset.mul_sum]
    have : ∀ i, K.sem.compute x y * (score x i * score y i) = K.sem.compute x y * score y i * score x i := fun i => by ring
    simp only [this]
    ring

/-- The specification determines the value: the operator has at most one value at a pair of points. -/
theorem C35_langevin_unique (k : Vec d → Vec d → ℝ) (s : Vec d → Vec d) (v v' : ℝ) (x y : Vec d)
    (h : IsSteinOfKernel k s v x y) (h' : IsSteinOfKernel k s v' x y) : v = v' := by
  obtain ⟨g, hg, dv, hdv, rfl⟩ := h
  obtain ⟨g', hg', dv', hdv', rfl⟩ := h'
  have he : ∀ᶠ x' in 𝓝 x, g x' = g' x' := (hg.and hg').mono fun x' h => h.1.unique h.2
  have hx : g x = g' x := he.self_of_nhds
  have : dv = dv' := by
    obtain ⟨G, hG, rfl⟩ := hdv
    obtain ⟨G', hG', rfl⟩ := hdv'
    refine Finset.sum_congr rfl fun i _ => ?_
    have h1 := IsGrad.congr_nhds (hG' i) (f' := fun x' => g x' i + k x' y * s y i) (he.mono fun x' h => by
      show g x' i + _ = g' x' i + _
      rw [h])
    rw [(hG i).unique h1]
  simp only [this, hx]

/-- Symmetry for every base kernel and score (no condition on points or parameters). -/
theorem C35_symmetric (K : KExpr d) (score : Vec d → Vec d) (h : K.NoStein) (x y : Vec d) :
    (KExpr.stein K score).sem.compute x y = (KExpr.stein K score).sem.compute y x :=
  steinCompute_comm (symOk_of_noStein K h) score x y

/-- For a smooth base kernel the Stein kernel is positive semi-definite, whatever the score function. -/
theorem C35_psd (K : KExpr d) (score : Vec d → Vec d) (hc : K.check = .ok ()) (hd : K.PsdDomain) (hs : K.Smooth) :
    IsPSD (KExpr.stein K score).sem.compute :=
  stein_isPSD K.sem score (C08_psd K hc hd) (hs.contDiff hc)
      (fun x y => gradOk_of_smooth K x y hc (hs.smoothAt x y))
      (fun x y => isDiv_of_smooth K x y hc (hs.smoothAt x y) (hs.divSmoothAt x y))

example : let K : KExpr 2 := .mul (.pcimq 1 2) (.power (.linear 1 1) (.int 2))
    K.check = .ok () ∧ K.PsdDomain ∧ K.Smooth ∧ K.NoStein := by
  intro K
  refine ⟨?_, ⟨trivial, trivial⟩, ⟨trivial, trivial, Or.inl ?_⟩, trivial, trivial⟩
  · norm_num [K, KExpr.check, checkPos, checkNonneg, checkIntGe, Bind.bind, Except.bind]
  · simp [PyNum.toInt]

/-! ### Kernel Stein discrepancy -/

section ksd
variable {X : Type*} [Zero X]

/-- The value: the weighted mean of the Stein kernel plus the two corrections, clipped at zero under the root. -/
theorem C35_ksd_value (big : ℝ) (kp : X → X → ℝ) {m : ℕ} (hm : 0 < m) (y : Data m X ℝ) (hy : ∑ i, y.weights i ≠ 0)
    (bs : PyTree (Option ℤ)) (hbs : ValidBlock bs) (logp lap : Option (Fin m → ℝ)) :
    ksdCompute big kp y bs logp lap = .ok (Real.sqrt (max 0
      ((avg y.weights fun i => avg y.weights fun j => kp (y.data i) (y.data j))
        + (match lap with | none => 0 | some l => (∑ i, l i) / (m : ℝ) ^ 2)
        - (match logp with | none => 0 | some l => 1 / (m : ℝ) * ((∑ i, l i) / m))))) := by
  simp only [ksdCompute, ksdSquared, C05_mean_none big kp hm hm y y hy hy bs hbs, meanScalar, clipSqrt, List.getD_cons_zero]
  congr 3
  cases logp <;> cases lap <;> simp <;> ring

/-- Without corrections and for a positive semi-definite Stein kernel the discrepancy is the root of the weighted mean,
with no clipping, and equals the norm of the mean embedding of the sample. -/
theorem C35_ksd_norm {X : Type u} [Zero X] (big : ℝ) (kp : X → X → ℝ) (hk : IsPSD kp) {m : ℕ} (hm : 0 < m) (y : Data m X ℝ)
    (hy : ∑ i, y.weights i ≠ 0) (bs : PyTree (Option ℤ)) (hbs : ValidBlock bs) :
    ksdCompute big kp y bs none none
      = .ok (Real.sqrt (avg y.weights fun i => avg y.weights fun j => kp (y.data i) (y.data j))) ∧
    0 ≤ (avg y.weights fun i => avg y.weights fun j => kp (y.data i) (y.data j)) ∧
    ∀ (H : Type u) (_ : NormedAddCommGroup H) (_ : InnerProductSpace ℝ H) (φ : X → H), (∀ a b, kp a b = ⟪φ a, φ b⟫) →
      ksdCompute big kp y bs none none = .ok ‖meanEmbedding φ y.data y.weights‖ := by
  have key : ∀ (H : Type u) (_ : NormedAddCommGroup H) (_ : InnerProductSpace ℝ H) (φ : X → H), (∀ a b, kp a b = ⟪φ a, φ b⟫) →
      (avg y.weights fun i => avg y.weights fun j => kp (y.data i) (y.data j)) = ‖meanEmbedding φ y.data y.weights‖ ^ 2 := by
    intro H _ _ φ hφ
    simp only [← real_inner_self_eq_norm_sq, avg, meanEmbedding, inner_smul_left, inner_smul_right, sum_inner, inner_sum,
      RCLike.conj_to_real, hφ]
    simp only [div_eq_mul_inv, Finset.mul_sum, Finset.sum_mul]
    refine Finset.sum_congr rfl (fun j _ => Finset.sum_congr rfl fun i _ => ?_)
    rw [real_inner_comm]
    ring
  have hnn : 0 ≤ (avg y.weights fun i => avg y.weights fun j => kp (y.data i) (y.data j)) := by
    obtain ⟨H, _, _, φ, hφ⟩ := hk.exists_feature
    rw [key H _ _ φ hφ]
    positivity
  refine ⟨?_, hnn, fun H _ _ φ hφ => ?_⟩
  · rw [C35_ksd_value big kp hm y hy bs hbs none none]
    simp [max_eq_right hnn]
  · rw [C35_ksd_value big kp hm y hy bs hbs none none]
    rw [add_zero, sub_zero, max_eq_right hnn, key H _ _ φ hφ, Real.sqrt_sq (norm_nonneg _)]

/-- Never negative, whatever the kernel, weights and corrections; errors exactly for invalid block sizes or no points. -/
theorem C35_ksd_nonneg_or_error (big : ℝ) (kp : X → X → ℝ) {m : ℕ} (y : Data m X ℝ) (bs : PyTree (Option ℤ))
    (logp lap : Option (Fin m → ℝ)) :
    (ValidBlock bs → 0 < m → ∃ r, ksdCompute big kp y bs logp lap = .ok r ∧ 0 ≤ r) ∧
    (ValidBlock bs → m = 0 → ksdCompute big kp y bs logp lap = .error .zeroDivisionError) ∧
    (¬ ValidBlock bs → ksdCompute big kp y bs logp lap = .error .valueError) := by
  obtain ⟨h1, h2, h3⟩ := C05_mean_errors big kp y y .none bs
  refine ⟨fun hb hm => ?_, fun hb hm => ?_, fun hb => ?_⟩
  · obtain ⟨l, hl, -⟩ := h2 hb hm hm
    exact ⟨_, by simp only [ksdCompute, ksdSquared, hl, meanScalar, clipSqrt]; rfl, Real.sqrt_nonneg _⟩
  · simp only [ksdCompute, ksdSquared, h1 hb (Or.inl hm), meanScalar, clipSqrt]
  · simp only [ksdCompute, ksdSquared, h3 hb, meanScalar, clipSqrt]

end ksd

/-- Putting both together: KSD computed with any smooth constructible base kernel and any score. -/
theorem C35_ksd_of_kernel (big : ℝ) (K : KExpr d) (score : Vec d → Vec d) (hc : K.check = .ok ()) (hd : K.PsdDomain)
    (hs : K.Smooth) {m : ℕ} (hm : 0 < m) (y : Data m (Vec d) ℝ) (hy : ∑ i, y.weights i ≠ 0) (bs : PyTree (Option ℤ))
    (hbs : ValidBlock bs) :
    ksdCompute big (KExpr.stein K score).sem.compute y bs none none
      = .ok (Real.sqrt (avg y.weights fun i => avg y.weights fun j => (KExpr.stein K score).sem.compute (y.data i) (y.data j))) :=
  (C35_ksd_norm big _ (C35_psd K score hc hd hs) hm y hy bs hbs).1

/-- The Laplacian kernel is accepted as base kernel, but its Stein kernel is **not** positive semi-definite as soon as
the score is small at one point: the diagonal is negative there, and the discrepancy of that point is clipped to zero. -/
theorem C35_laplacian_negative (big l s : ℝ) (hc : (KExpr.laplacian l s : KExpr d).check = .ok ()) (score : Vec d → Vec d)
    (x : Vec d) (hx : ∑ i, score x i ^ 2 < d / (4 * l ^ 4)) (bs : PyTree (Option ℤ)) (hbs : ValidBlock bs) :
    (KExpr.stein (.laplacian l s) score).sem.compute x x < 0 ∧
      ¬ IsPSD (KExpr.stein (.laplacian l s) score : KExpr d).sem.compute ∧
      ksdCompute big (KExpr.stein (.laplacian l s) score).sem.compute (⟨fun _ => x, fun _ => 1⟩ : Data 1 (Vec d) ℝ) bs none none
        = .ok 0 := by
  have hs := checkPos_ok (bind_ok hc).2
  have hval : (KExpr.stein (.laplacian l s) score).sem.compute x x = s * (∑ i, score x i ^ 2 - d / (4 * l ^ 4)) := by
    simp only [KExpr.sem, KSem.ofCompute, steinCompute, laplacianSem, nrm1, vdot, sub_self, abs_zero, Finset.sum_const_zero,
      neg_zero, zero_div, Real.exp_zero, mul_one, Real.sign_zero, zero_mul, Pi.neg_apply, pow_two]
    ring
  have hneg : (KExpr.stein (.laplacian l s) score).sem.compute x x < 0 := by
    rw [hval]
    exact mul_neg_of_pos_of_neg hs (by linarith)
  refine ⟨hneg, fun hk => ?_, ?_⟩
  · have := hk.2 1 (fun _ => x) (fun _ => 1)
    simp only [Finset.univ_unique, Finset.sum_const, Finset.card_singleton, one_smul, one_mul] at this
    exact absurd hneg (not_lt.2 this)
  · rw [C35_ksd_value big _ one_pos _ (by simp) bs hbs none none]
    simp only [avg, Finset.univ_unique, Finset.sum_const, Finset.card_singleton, one_smul, one_mul, div_one, add_zero,
      sub_zero, max_eq_left hneg.le, Real.sqrt_zero]

example : (KExpr.laplacian 1 1 : KExpr 1).check = .ok () ∧ ∑ i, (fun x : Vec 1 => -x) 0 i ^ 2 < ((1 : ℕ) : ℝ) / (4 * 1 ^ 4) := by
  constructor
  · norm_num [KExpr.check, checkPos, Bind.bind, Except.bind]
  · norm_num

/-! ### Conversion to a Stein kernel -/

/-- The result is a Stein kernel; an existing one keeps its base kernel, and its score function exactly when no score
matching is given; any other kernel becomes the base kernel. -/
theorem C35_convert (big : ℝ) {n : ℕ} (data : Fin n → Vec d) (K : KExpr d) (s s' : Vec d → Vec d) :
    convertStein big data (.stein K s) none = .ok (.stein K s) ∧
    convertStein big data (.stein K s) (some s') = .ok (.stein K s') ∧
    ((∀ b t, K ≠ .stein b t) → convertStein big data K (some s') = .ok (.stein K s')) ∧
    ((∀ b t, K ≠ .stein b t) → ∀ r, convertStein big data K none = r → K.check = .ok () →
      ∃ t, r = .ok (.stein K t) ∧ kdeMatch big K.lengthScale data = .ok t) := by
  have hK : (∀ b t, K ≠ .stein b t) → K.check = .ok () → 0 < K.lengthScale := by
    intro hns hc
    cases K <;> first
      | exact checkPos_ok (bind_ok hc).1
      | exact one_pos
  refine ⟨rfl, rfl, fun h => ?_, fun h r hr hc => ?_⟩
  · cases K <;> first
      | rfl
      | exact absurd rfl (h _ _)
  · have hpos := hK h hc
    have hk : (kdeKernel K.lengthScale : KExpr d).check = .ok () := by
      have h2 : 0 < 1 / (Real.sqrt (2 * Real.pi) * K.lengthScale) := by
        have := Real.pi_pos
        positivity
      simp only [kdeKernel, KExpr.check, checkPos, not_le.2 hpos, not_le.2 h2, if_false]
      rfl
    refine ⟨_, ?_, by simp only [kdeMatch, hk]; rfl⟩
    rw [← hr]
    cases K <;> first
      | exact absurd rfl (h _ _)
      | simp only [convertStein, kdeMatch, hk]

/-- Converting twice without score matching changes nothing more. -/
theorem C35_convert_idempotent (big : ℝ) {n : ℕ} (data : Fin n → Vec d) (K K' : KExpr d) (sm : Option (Vec d → Vec d))
    (h : convertStein big data K sm = .ok K') : convertStein big data K' none = .ok K' := by
  have : ∃ b t, K' = .stein b t := by
    unfold convertStein at h
    split at h
    · cases h; exact ⟨_, _, rfl⟩
    · cases h; exact ⟨_, _, rfl⟩
    · cases h; exact ⟨_, _, rfl⟩
    · split at h
      · cases h
      · cases h; exact ⟨_, _, rfl⟩
  obtain ⟨b, t, rfl⟩ := this
  rfl

/-! ### C42: the kernel density score -/

/-- **C42.** The score function of kernel density matching is, at every point, the gradient of the logarithm of the
Gaussian kernel density estimate (whatever its normalising constant `c`). -/
theorem C42_kde_score (big l : ℝ) (hl : 0 < l) {n : ℕ} (hn : 0 < n) (data : Fin n → Vec d) (x : Vec d) (c : ℝ) (hc : 0 < c) :
    ∃ g, kdeScore big l data x = .ok g ∧
      IsGrad (fun z => Real.log (c * ∑ j, Real.exp (-(∑ i, (z i - data j i) ^ 2) / (2 * l ^ 2)))) g x := by
  have hsum : ∑ j, (Data.ofArray (K := ℝ) data).weights j ≠ 0 := by
    simp only [Data.ofArray, Finset.sum_const, Finset.card_univ, Fintype.card_fin, nsmul_eq_mul, mul_one]
    exact_mod_cast hn.ne'
  have hv : ValidBlock (.leaf none) := Or.inl rfl
  have hcomp := C05_mean_axis1 big (kdeKernel l : KExpr d).sem.compute one_pos hn (Data.ofArray (K := ℝ) ![x])
    (Data.ofArray data) hsum (.leaf none) hv
  refine ⟨_, by simp only [kdeScore, hcomp]; rfl, ?_⟩
  set σ : ℝ := 1 / (Real.sqrt (2 * Real.pi) * l) with hσ
  have hσpos : 0 < σ := by
    have := Real.pi_pos
    positivity
  have hgrad : ∀ j, IsGrad (fun z => (kdeKernel l : KExpr d).sem.compute z (data j)) ((kdeKernel l : KExpr d).sem.gradX x (data j)) x :=
    fun j => (gradOk_squaredExponential hl).left
  have hS := IsGrad.sum (x := x) Finset.univ fun j _ => hgrad j
  have hpos : 0 < ∑ j, (kdeKernel l : KExpr d).sem.compute x (data j) := by
    have : Nonempty (Fin n) := ⟨⟨0, hn⟩⟩
    refine Finset.sum_pos (fun j _ => ?_) Finset.univ_nonempty
    show 0 < σ * Real.exp _
    positivity
  have hlog := (hS.const_mul (c / σ)).scalar (Real.hasDerivAt_log (by positivity))
  refine hlog.congr (fun z => ?_) (fun i => ?_)
  · show Real.log _ = Real.log (c / σ * ∑ j, σ * Real.exp (-sqDist z (data j) / (2 * l ^ 2)))
    congr 1
    rw [← Finset.mul_sum, ← mul_assoc, div_mul_cancel₀ c hσpos.ne']
    simp only [sqDist, pow_two]
  · have hn' : (n : ℝ) ≠ 0 := by exact_mod_cast hn.ne'
    simp only [avg, Data.ofArray, Finset.sum_const, Finset.card_univ, Fintype.card_fin, nsmul_eq_mul, mul_one, one_mul,
      List.ofFn_succ, List.getD_cons_zero, Matrix.cons_val_zero]
    have hc' : c / σ ≠ 0 := by positivity
    have := hpos.ne'
    field_simp

/-- **C42.** The function that `match` returns is that gradient at every point; and this is the score of the Stein kernel to which a valid
kernel is converted without score matching, with the length scale of that kernel as bandwidth. -/
theorem C42_kde_match (big l : ℝ) (hl : 0 < l) {n : ℕ} (hn : 0 < n) (data : Fin n → Vec d) (c : ℝ) (hc : 0 < c) :
    (∃ t, kdeMatch big l data = .ok t ∧ ∀ x,
      IsGrad (fun z => Real.log (c * ∑ j, Real.exp (-(∑ i, (z i - data j i) ^ 2) / (2 * l ^ 2)))) (t x) x) ∧
    ∀ K : KExpr d, (∀ b t, K ≠ .stein b t) → K.check = .ok () → K.lengthScale = l →
      ∃ t, convertStein big data K none = .ok (.stein K t) ∧ ∀ x,
        IsGrad (fun z => Real.log (c * ∑ j, Real.exp (-(∑ i, (z i - data j i) ^ 2) / (2 * l ^ 2)))) (t x) x := by
  have hk : (kdeKernel l : KExpr d).check = .ok () := by
    have h2 : 0 < 1 / (Real.sqrt (2 * Real.pi) * l) := by
      have := Real.pi_pos
      positivity
    simp only [kdeKernel, KExpr.check, checkPos, not_le.2 hl, not_le.2 h2, if_false]
    rfl
  have h1 : ∃ t, kdeMatch big l data = .ok t ∧ ∀ x,
      IsGrad (fun z => Real.log (c * ∑ j, Real.exp (-(∑ i, (z i - data j i) ^ 2) / (2 * l ^ 2)))) (t x) x := by
    refine ⟨_, by simp only [kdeMatch, hk]; rfl, fun x => ?_⟩
    obtain ⟨g, hg, hgrad⟩ := C42_kde_score big l hl hn data x c hc
    simp only [hg]
    exact hgrad
  refine ⟨h1, fun K hK hcheck hKl => ?_⟩
  obtain ⟨t, ht, ht2⟩ := (C35_convert big data K 0 0).2.2.2 hK _ rfl hcheck
  obtain ⟨t', h3, h4⟩ := h1
  rw [hKl, h3] at ht2
  cases ht2
  exact ⟨t, ht, h4⟩

/-- Without data the score function fails. -/
theorem C42_kde_empty (big l : ℝ) (data : Fin 0 → Vec d) (x : Vec d) :
    kdeScore big l data x = .error .zeroDivisionError := by
  have := (C05_mean_errors big (kdeKernel l : KExpr d).sem.compute (Data.ofArray (K := ℝ) ![x])
    (Data.ofArray data) .one (.leaf none)).1 ((by exact Or.inl rfl)) (Or.inr rfl)
  simp only [kdeScore, this]

/-- Invalid length scales are rejected when matching. -/
theorem C42_kde_rejects (big l : ℝ) (hl : l ≤ 0) {n : ℕ} (data : Fin n → Vec d) :
    kdeMatch big l data = .error .valueError := by
  have : (kdeKernel l : KExpr d).check = .error .valueError := by
    simp only [kdeKernel, KExpr.check, checkPos, hl, if_true]
    rfl
  simp only [kdeMatch, this]

/-- The hypotheses of `C42_kde_match` on the kernel can be met. -/
example : (KExpr.laplacian 2 1 : KExpr 1).check = .ok () ∧ (KExpr.laplacian 2 1 : KExpr 1).lengthScale = 2 := by
  constructor
  · norm_num [KExpr.check, checkPos, Bind.bind, Except.bind]
  · rfl

/-- The product of an inverse multi-quadric and a squared linear kernel, with the score of the standard normal. -/
example : ∀ x y : Vec 2, IsSteinOfKernel (KExpr.mul (.pcimq 1 2) (.power (.linear 1 1) (.int 2))).sem.compute (fun x => -x)
    ((KExpr.stein (.mul (.pcimq 1 2) (.power (.linear 1 1) (.int 2))) fun x => -x).sem.compute x y) x y := by
  have hs : (KExpr.mul (.pcimq 1 2) (.power (.linear 1 1) (.int 2)) : KExpr 2).Smooth := ⟨trivial, trivial, Or.inl (by simp [PyNum.toInt])⟩
  exact fun x y => C35_langevin _ _ x y (by norm_num [KExpr.check, checkPos, checkNonneg, checkIntGe, Bind.bind, Except.bind]) ⟨trivial, trivial⟩ (hs.smoothAt x y) (hs.divSmoothAt x y)

/-- The Laplacian kernel away from the diagonal, and the value there is the only one. -/
example : ∃ v, IsSteinOfKernel (KExpr.laplacian 1 1 : KExpr 1).sem.compute (fun x => -x) v 0 1 ∧
    ∀ v', IsSteinOfKernel (KExpr.laplacian 1 1 : KExpr 1).sem.compute (fun x => -x) v' 0 1 → v' = v :=
  ⟨_, C35_langevin _ _ 0 1 (by norm_num [KExpr.check, checkPos, Bind.bind, Except.bind]) trivial (fun i => by simp) (by simp [KExpr.DivSmoothAt]),
    fun v' h => C35_langevin_unique _ _ _ _ _ _ h (C35_langevin _ _ 0 1 (by norm_num [KExpr.check, checkPos, Bind.bind, Except.bind]) trivial (fun i => by simp) (by simp [KExpr.DivSmoothAt]))⟩

example := C35_symmetric (.mul (.pcimq 1 2) (.laplacian 1 1) : KExpr 2) (fun x => -x) ⟨trivial, trivial⟩

example := C35_ksd_value 1000 (fun a b : ℝ => a * b) (m := 2) (by norm_num) ⟨![1, 4], ![1, 2]⟩ (by norm_num [Fin.sum_univ_two]) (.leaf none) (.inl rfl) (some ![1, 2]) (some ![0, 3])

example := C35_ksd_norm 1000 (fun a b : ℝ => a * b) (isPSD_rankOne fun x : ℝ => x) (m := 2) (by norm_num) ⟨![1, 4], ![1, 2]⟩ (by norm_num [Fin.sum_univ_two]) (.leaf none) (.inl rfl)

example := C35_ksd_of_kernel 1000 (.mul (.pcimq 1 2) (.power (.linear 1 1) (.int 2)) : KExpr 2) (fun x => -x)
  (by norm_num [KExpr.check, checkPos, checkNonneg, checkIntGe, Bind.bind, Except.bind]) ⟨trivial, trivial⟩ ⟨trivial, trivial, Or.inl (by simp [PyNum.toInt])⟩
  (m := 2) (by norm_num) ⟨![fun _ => 1, fun _ => 4], ![1, 2]⟩ (by norm_num [Fin.sum_univ_two]) (.leaf none) (.inl rfl)

example (data : Fin 3 → Vec 1) := C35_convert_idempotent 1000 data (.laplacian 2 1) (.stein (.laplacian 2 1) fun x => -x) (some fun x => -x) rfl

example := C42_kde_score (d := 1) 1000 2 (by norm_num) (n := 2) (by norm_num) ![fun _ => 1, fun _ => 4] (fun _ => 2) (1 / 2) (by norm_num)

example := (C42_kde_match (d := 1) 1000 2 (by norm_num) (n := 2) (by norm_num) ![fun _ => 1, fun _ => 4] (1 / 2) (by norm_num)).2 (.laplacian 2 1) (by simp)
  (by norm_num [KExpr.check, checkPos, Bind.bind, Except.bind]) rfl

end Coreax
