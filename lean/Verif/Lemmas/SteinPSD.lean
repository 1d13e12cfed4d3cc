import Verif.Lemmas.KernelGrad
import Verif.Lemmas.Matern
import Mathlib.Analysis.Calculus.FDeriv.Symmetric

/-!
# The Stein kernel of a twice differentiable positive semi-definite kernel is positive semi-definite
-/

set_option linter.unusedSectionVars false

namespace Coreax

open Spec Filter Topology

/-- Kernels of finite combinations of shifted features. -/
theorem Spec.IsPSD.combo {X : Type*} {k : X → X → ℝ} (hk : IsPSD k) {M : Type*} [Fintype M] (α : M → X → ℝ) (g : M → X → X) :
    IsPSD (fun x y => ∑ m, ∑ m', α m x * α m' y * k (g m x) (g m' y)) := by
  obtain ⟨H, _, _, φ, hφ⟩ := hk.exists_feature
  refine (isPSD_of_feature fun x => ∑ m, α m x • φ (g m x)).congr fun x y => ?_
  simp only [sum_inner, inner_sum, inner_smul_left, inner_smul_right, RCLike.conj_to_real, hφ, Finset.mul_sum]
  rw [Finset.sum_comm]
  exact Finset.sum_congr rfl fun m _ => Finset.sum_congr rfl fun m' _ => by ring

variable {d : ℕ}

/-- Difference quotients at a shifted base point converge to the derivative. -/
theorem tendsto_shifted_quotient {f : ℝ → ℝ} {f' : ℝ} (h : HasDerivAt f f' 0) :
    Tendsto (fun t : ℝ => t⁻¹ * (f (2 * t) - f t)) (𝓝[>] 0) (𝓝 f') := by
  have h1 : Tendsto (fun t : ℝ => t⁻¹ * (f t - f 0)) (𝓝[>] 0) (𝓝 f') := by
    have := (hasDerivAt_iff_tendsto_slope_zero.1 h).mono_left (nhdsWithin_mono 0 (show Set.Ioi (0 : ℝ) ⊆ {0}ᶜ from fun t ht => ne_of_gt ht))
    simpa using this
  have h2 : Tendsto (fun t : ℝ => 2 * t) (𝓝[>] (0 : ℝ)) (𝓝[>] 0) := by
    refine tendsto_nhdsWithin_iff.2 ⟨?_, ?_⟩
    · have : Tendsto (fun t : ℝ => 2 * t) (𝓝 0) (𝓝 (2 * 0)) := (continuous_const.mul continuous_id).tendsto 0
      rw [mul_zero] at this
      exact this.mono_left nhdsWithin_le_nhds
    · filter_upwards [self_mem_nhdsWithin] with t ht
      have : (0 : ℝ) < t := ht
      show 0 < 2 * t
      linarith
  have h3 := ((h1.comp h2).const_mul 2).sub h1
  have e : 2 * f' - f' = f' := by ring
  rw [e] at h3
  refine h3.congr' ?_
  filter_upwards [self_mem_nhdsWithin] with t ht
  have : t ≠ 0 := ne_of_gt ht
  simp only [Function.comp]
  field_simp
  ring

theorem hasDerivAt_line {f : Vec d → ℝ} {g : Vec d} {x : Vec d} (h : IsGrad f g x) (l : Fin d) :
    HasDerivAt (fun t : ℝ => f (x + t • (Pi.single l 1 : Vec d))) (g l) 0 := by
  have h1 : HasFDerivAt f (gradMap g) (x + (0 : ℝ) • (Pi.single l 1 : Vec d)) := by simpa [IsGrad] using h
  have h2 : HasDerivAt (fun t : ℝ => x + t • (Pi.single l 1 : Vec d)) (Pi.single l 1) 0 := by
    have := ((hasDerivAt_id (0 : ℝ)).smul_const (Pi.single l 1 : Vec d)).const_add x
    simpa using this
  have := h1.comp_hasDerivAt (0 : ℝ) h2
  rwa [gradMap_single] at this

/-- One coordinate of the Stein kernel, for points `(x, τ, β)` that carry a coefficient `τ` of the derivative of the feature at `x` and a
coefficient `β` of the feature itself. -/
theorem stein_coord_marked (k : KSem d) (hpsd : IsPSD k.compute)
    (hC : ContDiff ℝ 2 (fun p : Vec d × Vec d => k.compute p.1 p.2)) (hg : ∀ x y, GradOk k x y)
    (G : Vec d → Vec d → Fin d → Vec d) (hG : ∀ x y i, IsGrad (fun x' => k.gradY x' y i) (G x y i) x) (l : Fin d) :
    IsPSD (fun p q : Vec d × ℝ × ℝ => p.2.1 * q.2.1 * G p.1 q.1 l l + p.2.1 * (k.gradX p.1 q.1 l * q.2.2)
      + q.2.1 * (k.gradY p.1 q.1 l * p.2.2) + k.compute p.1 q.1 * (p.2.2 * q.2.2)) := by
  set e : Vec d := Pi.single l 1 with he
  set F : Vec d × Vec d → ℝ := fun p => k.compute p.1 p.2 with hF
  have hdiff : Differentiable ℝ F := hC.differentiable (by norm_num)
  have hdiff2 : Differentiable ℝ (fderiv ℝ F) := (hC.fderiv_right (m := 1) (by norm_num)).differentiable (by norm_num)
  have hgy : ∀ x y, fderiv ℝ F (x, y) (0, e) = k.gradY x y l := by
    intro x y
    have h1 : HasFDerivAt (fun y' : Vec d => (x, y')) (ContinuousLinearMap.inr ℝ (Vec d) (Vec d)) y :=
      (hasFDerivAt_const x y).prodMk (hasFDerivAt_id y)
    have h2 := (hdiff (x, y)).hasFDerivAt.comp y h1
    have h3 := HasFDerivAt.unique h2 (hg x y).right
    have h4 := congrArg (fun L => L e) h3
    rw [he, gradMap_single] at h4
    simpa using h4
  have hmix : ∀ x y, fderiv ℝ (fderiv ℝ F) (x, y) (e, 0) (0, e) = G x y l l := by
    intro x y
    have h0 : HasFDerivAt (fun p => fderiv ℝ F p (0, e)) ((fderiv ℝ (fderiv ℝ F) (x, y)).flip (0, e)) (x, y) :=
      ((ContinuousLinearMap.apply ℝ ℝ ((0, e) : Vec d × Vec d)).hasFDerivAt (x := fderiv ℝ F (x, y))).comp (x, y)
        (hdiff2 (x, y)).hasFDerivAt
    have h1 : HasFDerivAt (fun x' : Vec d => (x', y)) (ContinuousLinearMap.inl ℝ (Vec d) (Vec d)) x :=
      (hasFDerivAt_id x).prodMk (hasFDerivAt_const y x)
    have h2 := h0.comp x h1
    have h3 : ((fun p => fderiv ℝ F p (0, e)) ∘ fun x' : Vec d => (x', y)) = fun x' => k.gradY x' y l :=
      funext fun x' => hgy x' y
    rw [h3] at h2
    have h4 := congrArg (fun L => L e) (HasFDerivAt.unique h2 (hG x y l))
    rw [he, gradMap_single] at h4
    simpa using h4
  -- the approximating kernels
  let t : ℕ → ℝ := fun n => 1 / ((n : ℝ) + 1)
  have htpos : ∀ n, 0 < t n := fun n => Nat.one_div_pos_of_nat
  have ht : Tendsto t atTop (𝓝[>] 0) :=
    tendsto_nhdsWithin_iff.2 ⟨tendsto_one_div_add_atTop_nhds_zero_nat, Eventually.of_forall htpos⟩
  refine isPSD_of_tendsto (fun n => (hpsd.comp (Prod.fst : Vec d × ℝ × ℝ → Vec d)).combo
    (![fun p => p.2.1 * (t n)⁻¹, fun p => -(p.2.1 * (t n)⁻¹), fun p => p.2.2] : Fin 3 → Vec d × ℝ × ℝ → ℝ)
    (![fun p => (p.1 + (2 * t n) • e, p.2), fun p => (p.1 + t n • e, p.2), fun p => p] : Fin 3 → Vec d × ℝ × ℝ → Vec d × ℝ × ℝ)) ?_
  rintro ⟨x, τ, β⟩ ⟨y, τ', β'⟩
  have hx := (tendsto_shifted_quotient (hasDerivAt_line (hg x y).left l)).comp ht
  have hy := (tendsto_shifted_quotient (hasDerivAt_line (hg x y).right l)).comp ht
  have hxy : Tendsto (fun h : ℝ => (h ^ 2)⁻¹ * (F (x + (2 * h) • e, y + (2 * h) • e) + F (x + h • e, y + h • e)
      - F (x + (2 * h) • e, y + h • e) - F (x + h • e, y + (2 * h) • e))) (𝓝[>] 0) (𝓝 (G x y l l)) := by
    have := Convex.isLittleO_alternate_sum_square (s := Set.univ) (f := F) (f' := fderiv ℝ F)
      (f'' := fderiv ℝ (fderiv ℝ F) (x, y)) convex_univ (fun p _ => (hdiff p).hasFDerivAt) (x := (x, y)) (Set.mem_univ _)
      (by rw [interior_univ]; exact (hdiff2 (x, y)).hasFDerivAt.hasFDerivWithinAt) (v := (e, 0)) (w := (0, e))
      (by simp) (by simp)
    rw [hmix] at this
    have h2 := this.tendsto_div_nhds_zero
    have h3 := h2.add_const (G x y l l)
    rw [zero_add] at h3
    refine h3.congr' ?_
    filter_upwards [self_mem_nhdsWithin] with h hh
    have hne : h ≠ 0 := ne_of_gt hh
    have e1 : (x, y) + h • (2 • ((e, 0) : Vec d × Vec d) + 2 • (0, e)) = (x + (2 * h) • e, y + (2 * h) • e) := by
      ext i <;> simp <;> ring
    have e2 : (x, y) + h • (((e, 0) : Vec d × Vec d) + (0, e)) = (x + h • e, y + h • e) := by
      ext i <;> simp
    have e3 : (x, y) + h • (2 • ((e, 0) : Vec d × Vec d) + (0, e)) = (x + (2 * h) • e, y + h • e) := by
      ext i <;> simp; ring
    have e4 : (x, y) + h • (((e, 0) : Vec d × Vec d) + 2 • (0, e)) = (x + h • e, y + (2 * h) • e) := by
      ext i <;> simp; ring
    rw [e1, e2, e3, e4, smul_eq_mul]
    field_simp
    ring
  have hall := (((hxy.comp ht).const_mul (τ * τ')).add ((hx.mul_const β').const_mul τ)).add ((hy.mul_const β).const_mul τ')
  have hall := hall.add_const (k.compute x y * (β * β'))
  refine hall.congr fun n => ?_
  have := (htpos n).ne'
  simp only [Fin.sum_univ_three, Matrix.cons_val_zero, Matrix.cons_val_one, Matrix.cons_val, Function.comp, hF]
  field_simp
  ring

/-- The Stein kernel of points `(x, τ, b)` that carry a coefficient `τ` of the gradient of the feature and a vector `b` of coefficients of
the feature: the kernel of `τ ∇φ(x) + b φ(x)`. -/
theorem stein_isPSD_marked (k : KSem d) (hpsd : IsPSD k.compute)
    (hC : ContDiff ℝ 2 (fun p : Vec d × Vec d => k.compute p.1 p.2)) (hg : ∀ x y, GradOk k x y)
    (hd : ∀ x y, IsDiv (fun x' => k.gradY x' y) (k.div x y) x) :
    IsPSD (fun p q : Vec d × ℝ × Vec d => p.2.1 * q.2.1 * k.div p.1 q.1 + p.2.1 * vdot (k.gradX p.1 q.1) q.2.2
      + q.2.1 * vdot (k.gradY p.1 q.1) p.2.2 + k.compute p.1 q.1 * vdot p.2.2 q.2.2) := by
  choose G hG hv using hd
  refine (isPSD_sum Finset.univ fun l _ => (stein_coord_marked k hpsd hC hg G hG l).comp
    fun p : Vec d × ℝ × Vec d => (p.1, p.2.1, p.2.2 l)).congr fun p q => ?_
  simp only [vdot, hv, Finset.sum_add_distrib, Finset.mul_sum]

theorem stein_isPSD (k : KSem d) (score : Vec d → Vec d) (hpsd : IsPSD k.compute)
    (hC : ContDiff ℝ 2 (fun p : Vec d × Vec d => k.compute p.1 p.2)) (hg : ∀ x y, GradOk k x y)
    (hd : ∀ x y, IsDiv (fun x' => k.gradY x' y) (k.div x y) x) : IsPSD (steinCompute k score) := by
  refine ((stein_isPSD_marked k hpsd hC hg hd).comp fun x => (x, 1, score x)).congr fun x y => ?_
  simp only [steinCompute, one_mul]

end Coreax
