import Verif.Lemmas.KernelGrad
import Mathlib.NumberTheory.Real.Irrational

/-!
# C09, C10: closed-form gradients and divergences of the kernels
-/

set_option linter.unusedSectionVars false

namespace Coreax

open Spec

variable {d : ℕ}

/-- Where the gradient formulas apply: the points at which the kernel is differentiable and its formulas do not divide
by zero.  The Poisson kernel is documented for one dimension only.  A Stein kernel has no closed form; automatic
differentiation needs its value to be differentiable. -/
def KExpr.SmoothAt : KExpr d → Vec d → Vec d → Prop
  | .exponential _ _, x, y => x ≠ y
  | .laplacian _ _, x, y => ∀ i, x i ≠ y i
  | .rationalQuadratic _ _ a, _, _ => a ≠ 0
  | .matern _ _ _, x, y => x ≠ y
  | .periodic _ _ p, x, y => p ≠ 0 ∧ x ≠ y
  | .poisson _ _, _, _ => d = 1
  | .power k _, x, y => k.SmoothAt x y
  | .add a b, x, y => a.SmoothAt x y ∧ b.SmoothAt x y
  | .mul a b, x, y => a.SmoothAt x y ∧ b.SmoothAt x y
  | .stein k score, x, y =>
    DifferentiableAt ℝ (fun x' => steinCompute k.sem score x' y) x ∧
      DifferentiableAt ℝ (fun y' => steinCompute k.sem score x y') y
  | _, _, _ => True

/-- Additional conditions for the divergence: the periodic formula is right for `output_scale = 1` only, a first power
must not meet a zero of its base, and the automatic divergence of a Stein kernel needs a differentiable gradient. -/
def KExpr.DivSmoothAt : KExpr d → Vec d → Vec d → Prop
  | .periodic _ s _, _, _ => s = 1
  | .power k n, x, y => k.DivSmoothAt x y ∧ (n.toInt ≠ 1 ∨ k.sem.compute x y ≠ 0)
  | .add a b, x, y => a.DivSmoothAt x y ∧ b.DivSmoothAt x y
  | .mul a b, x, y => a.DivSmoothAt x y ∧ b.DivSmoothAt x y
  | .stein k score, x, y => DifferentiableAt ℝ (fun x' => (KExpr.stein k score).sem.gradY x' y) x
  | _, _, _ => True

theorem checkPos_ok {v : ℝ} (h : checkPos v = .ok ()) : 0 < v := by
  unfold checkPos at h
  split at h
  · cases h
  · exact not_le.1 ‹_›

theorem checkNonneg_ok {v : ℝ} (h : checkNonneg v = .ok ()) : 0 ≤ v := by
  unfold checkNonneg at h
  split at h
  · cases h
  · exact not_lt.1 ‹_›

theorem checkIntGe_ok {lo : ℤ} {n : PyNum} (h : checkIntGe lo n = .ok ()) : lo ≤ n.toInt := by
  cases n with
  | int z =>
    simp only [checkIntGe] at h
    split at h
    · cases h
    · exact not_lt.1 ‹_›
  | float r => cases h

theorem bind_ok {a b : Except Err Unit} (h : (do a; b) = .ok ()) : a = .ok () ∧ b = .ok () := by
  cases a with
  | error e => cases h
  | ok u => exact ⟨rfl, h⟩

theorem poissonCheck_ok {r : ℝ} (h : (if r ≤ 0 ∨ 1 ≤ r then .error .valueError else .ok () : Except Err Unit) = .ok ()) :
    0 < r ∧ r < 1 := by
  split at h
  · cases h
  · rename_i hn
    rw [not_or] at hn
    exact ⟨not_le.1 hn.1, not_le.1 hn.2⟩

open Classical in
theorem mul_eq_sem (a b : KExpr d) : decide (a = b) = true → a.sem = b.sem := fun h => by rw [of_decide_eq_true h]

theorem gradOk_of_smooth (K : KExpr d) (x y : Vec d) (hc : K.check = .ok ()) (hs : K.SmoothAt x y) : GradOk K.sem x y := by
  induction K with
  | const c => exact gradOk_const c
  | linear s c => exact gradOk_linear s c
  | polynomial s c n => exact gradOk_polynomial s c (checkIntGe_ok (bind_ok (bind_ok hc).2).2)
  | exponential l s => exact gradOk_exponential (checkPos_ok (bind_ok hc).1) hs
  | laplacian l s => exact gradOk_laplacian hs
  | squaredExponential l s => exact gradOk_squaredExponential (checkPos_ok (bind_ok hc).1)
  | pcimq l s => exact gradOk_pcimq (checkPos_ok (bind_ok hc).1) (checkPos_ok (bind_ok hc).2)
  | rationalQuadratic l s a =>
    exact gradOk_rationalQuadratic (checkPos_ok (bind_ok hc).1)
      (lt_of_le_of_ne (checkNonneg_ok (bind_ok (bind_ok hc).2).2) (Ne.symm hs))
  | matern l s n => exact (matern_ok l s _ hs).1
  | periodic l s p => exact gradOk_periodic (checkPos_ok (bind_ok hc).1) hs.1 hs.2
  | poisson r s =>
    obtain rfl : d = 1 := hs
    exact gradOk_poisson (poissonCheck_ok (bind_ok hc).1).1 (poissonCheck_ok (bind_ok hc).1).2
  | power k n ih => exact gradOk_power (checkIntGe_ok (bind_ok hc).2) (ih (bind_ok hc).1 hs)
  | add a b iha ihb => exact gradOk_add (iha (bind_ok hc).1 hs.1) (ihb (bind_ok hc).2 hs.2)
  | mul a b iha ihb => exact gradOk_mul _ (mul_eq_sem a b) (iha (bind_ok hc).1 hs.1) (ihb (bind_ok hc).2 hs.2)
  | stein k score _ => exact gradOk_ofCompute hs.1 hs.2

/-- **C09.** For every kernel that the library lets one construct, arbitrarily nested, in every dimension and at every
pair of points of differentiability, the returned gradients are the true gradients. -/
theorem C09_gradients (K : KExpr d) (x y : Vec d) (hc : K.check = .ok ()) (hs : K.SmoothAt x y) :
    IsGrad (fun x' => K.sem.compute x' y) (K.sem.gradX x y) x ∧
      IsGrad (fun y' => K.sem.compute x y') (K.sem.gradY x y) y :=
  ⟨(gradOk_of_smooth K x y hc hs).left, (gradOk_of_smooth K x y hc hs).right⟩

example := C09_gradients (.power (.add (.exponential 1 2) (.rationalQuadratic 1 2 3)) (.int 3) : KExpr 2) ![0, 0] ![1, 2] (by norm_num [KExpr.check, checkPos, checkNonneg, checkIntGe, bind, Except.bind]) ⟨fun h => by simpa using congrFun h 0, by norm_num [KExpr.SmoothAt]⟩

/-- The same coordinate by coordinate: partial derivatives. -/
theorem C09_partial_derivatives (K : KExpr d) (x y : Vec d) (hc : K.check = .ok ()) (hs : K.SmoothAt x y) (i : Fin d) :
    HasDerivAt (fun t => K.sem.compute (Function.update x i t) y) (K.sem.gradX x y i) (x i) ∧
      HasDerivAt (fun t => K.sem.compute x (Function.update y i t)) (K.sem.gradY x y i) (y i) :=
  ⟨(gradOk_of_smooth K x y hc hs).left.partial i, (gradOk_of_smooth K x y hc hs).right.partial i⟩

/-- A nested kernel that meets the hypotheses at a concrete pair of points. -/
example : let K : KExpr 2 := .power (.add (locallyPeriodic 1 2 3 4 5) (.mul (.rationalQuadratic 1 2 3) (.laplacian 1 1))) (.int 3)
    K.check = .ok () ∧ K.SmoothAt ![0, 0] ![1, 2] := by
  intro K
  refine ⟨?_, ?_⟩
  · norm_num [K, locallyPeriodic, KExpr.check, checkPos, checkNonneg, checkIntGe, bind, Except.bind]
  · have h : (![0, 0] : Vec 2) ≠ ![1, 2] := fun h => by simpa using congrFun h 0
    refine ⟨⟨⟨by norm_num, h⟩, trivial⟩, by norm_num [KExpr.SmoothAt], ?_⟩
    intro i
    fin_cases i <;> norm_num

/-- In more than one dimension the Poisson gradient is wrong (the class documents one dimension): at a difference of
`(π, π)` the code returns zero while the kernel varies. -/
theorem C09_poisson_multidim (r s : ℝ) (hr0 : 0 < r) (hr1 : r < 1) (hs : 0 < s) :
    ¬ IsGrad (fun x' => (KExpr.poisson r s : KExpr 2).sem.compute x' 0)
      ((KExpr.poisson r s : KExpr 2).sem.gradX ![Real.pi, Real.pi] 0) ![Real.pi, Real.pi] := by
  intro h
  have hq : (0 : ℝ) < sqDist ![Real.pi, Real.pi] (0 : Vec 2) := by
    have := Real.pi_pos
    simp [sqDist, Fin.sum_univ_two]
  have h1 : HasDerivAt (fun t => s / (1 - 2 * r * Real.cos (Real.sqrt t) + r ^ 2)) _ (sqDist ![Real.pi, Real.pi] (0 : Vec 2)) :=
    HasDerivAt.comp (h₂ := fun t => s / (1 - 2 * r * Real.cos t + r ^ 2)) _ (hasDerivAt_poisson hr0 hr1 s _) (hasDerivAt_sqrt_pos hq)
  have h2 := (isGrad_radial (x := ![Real.pi, Real.pi]) (0 : Vec 2) h1).congr
    (f' := fun x' => (KExpr.poisson r s : KExpr 2).sem.compute x' 0)
    (fun z => by simp only [KExpr.sem, poissonSem, nrm_eq, sqDist]) (fun i => rfl)
  have h3 := congrFun (h.unique h2) 0
  have hsq : Real.sqrt (sqDist ![Real.pi, Real.pi] (0 : Vec 2)) = Real.sqrt 2 * Real.pi := by
    rw [show sqDist ![Real.pi, Real.pi] (0 : Vec 2) = 2 * Real.pi ^ 2 by simp [sqDist, Fin.sum_univ_two]; ring,
      Real.sqrt_mul (by norm_num), Real.sqrt_sq Real.pi_pos.le]
  have hsin : Real.sin (Real.sqrt 2 * Real.pi) ≠ 0 := by
    intro h0
    obtain ⟨n, hn⟩ := Real.sin_eq_zero_iff.1 h0
    have : (n : ℝ) = Real.sqrt 2 := mul_right_cancel₀ Real.pi_ne_zero hn
    exact irrational_sqrt_two ⟨n, by simpa using this⟩
  have hD := poisson_den_pos hr0 hr1 (Real.sqrt 2 * Real.pi)
  have hpi := Real.pi_pos
  rw [hsq] at h3
  simp [KExpr.sem, poissonSem] at h3
  rcases h3 with ((h3 | h3) | h3) | h3
  all_goals first
    | exact absurd h3 (by positivity)
    | simp_all

example := C09_poisson_multidim (1 / 2) 1 (by norm_num) (by norm_num) (by norm_num)

theorem isDiv_of_smooth (K : KExpr d) (x y : Vec d) (hc : K.check = .ok ()) (hs : K.SmoothAt x y)
    (hd : K.DivSmoothAt x y) : IsDiv (fun x' => K.sem.gradY x' y) (K.sem.div x y) x := by
  induction K with
  | const c => exact isDiv_const c
  | linear s c => exact isDiv_linear s c
  | polynomial s c n => exact isDiv_polynomial s c (checkIntGe_ok (bind_ok (bind_ok hc).2).2)
  | exponential l s => exact isDiv_exponential (checkPos_ok (bind_ok hc).1) hs
  | laplacian l s => exact isDiv_laplacian (checkPos_ok (bind_ok hc).1) hs
  | squaredExponential l s => exact isDiv_squaredExponential (checkPos_ok (bind_ok hc).1)
  | pcimq l s => exact isDiv_pcimq (checkPos_ok (bind_ok hc).1) (checkPos_ok (bind_ok hc).2)
  | rationalQuadratic l s a =>
    exact isDiv_rationalQuadratic (checkPos_ok (bind_ok hc).1)
      (lt_of_le_of_ne (checkNonneg_ok (bind_ok (bind_ok hc).2).2) (Ne.symm hs))
  | matern l s n => exact isDiv_ofCompute (matern_ok l s _ hs).2
  | periodic l s p =>
    obtain rfl : s = 1 := hd
    exact (isDiv_periodic_true (checkPos_ok (bind_ok hc).1) hs.1 hs.2).congr (fun _ _ => rfl) (by simp [KExpr.sem])
  | poisson r s =>
    obtain rfl : d = 1 := hs
    exact isDiv_poisson (poissonCheck_ok (bind_ok hc).1).1 (poissonCheck_ok (bind_ok hc).1).2
  | power k n ih =>
    exact isDiv_power (checkIntGe_ok (bind_ok hc).2) (gradOk_of_smooth k x y (bind_ok hc).1 hs) (ih (bind_ok hc).1 hs hd.1)
  | add a b iha ihb => exact isDiv_add (iha (bind_ok hc).1 hs.1 hd.1) (ihb (bind_ok hc).2 hs.2 hd.2)
  | mul a b iha ihb =>
    exact isDiv_mul _ (mul_eq_sem a b) (gradOk_of_smooth a x y (bind_ok hc).1 hs.1) (gradOk_of_smooth b x y (bind_ok hc).2 hs.2)
      (iha (bind_ok hc).1 hs.1 hd.1) (ihb (bind_ok hc).2 hs.2 hd.2)
  | stein k score _ => exact isDiv_ofCompute hd

/-- **C10.** The divergence is the trace of the mixed second derivatives, for every constructible kernel and pair of
points meeting the stated conditions: it is the divergence in `x` of a field that is the gradient in `y`. -/
theorem C10_divergence (K : KExpr d) (x y : Vec d) (hc : K.check = .ok ()) (hs : K.SmoothAt x y) (hd : K.DivSmoothAt x y) :
    IsDiv (fun x' => K.sem.gradY x' y) (K.sem.div x y) x := isDiv_of_smooth K x y hc hs hd

example := C10_divergence (.power (.add (.exponential 1 2) (.rationalQuadratic 1 2 3)) (.int 3) : KExpr 2) ![0, 0] ![1, 2] (by norm_num [KExpr.check, checkPos, checkNonneg, checkIntGe, bind, Except.bind]) ⟨fun h => by simpa using congrFun h 0, by norm_num [KExpr.SmoothAt]⟩
  ⟨⟨trivial, trivial⟩, .inl (by decide)⟩

/-- For the periodic kernel the code is off by exactly this term, for every output scale. -/
theorem C10_periodic_error (l s p : ℝ) (hc : (KExpr.periodic l s p : KExpr d).check = .ok ()) (hp : p ≠ 0) (x y : Vec d)
    (h : x ≠ y) :
    IsDiv (fun x' => (KExpr.periodic l s p : KExpr d).sem.gradY x' y)
      ((KExpr.periodic l s p : KExpr d).sem.div x y
        + (s - 1) * s * (4 * Real.pi / (p * l ^ 2)) ^ 2 * Real.sin (Real.pi / p * nrm x y) ^ 2
          * Real.cos (Real.pi / p * nrm x y) ^ 2 * Real.exp (-(2 / l ^ 2) * Real.sin (Real.pi / p * nrm x y) ^ 2)) x :=
  isDiv_periodic_true (checkPos_ok (bind_ok hc).1) hp h

example := C10_periodic_error 1 2 4 (by norm_num [KExpr.check, checkPos, checkNonneg, checkIntGe, bind, Except.bind]) (by norm_num) (![1] : Vec 1) ![0] (fun h => by simpa using congrFun h 0)

/-- Hence it is wrong for **every** output scale other than one, at every pair of points where neither sine nor cosine
vanishes. -/
theorem C10_periodic_wrong (l s p : ℝ) (hc : (KExpr.periodic l s p : KExpr d).check = .ok ()) (hp : p ≠ 0) (hs1 : s ≠ 1)
    (x y : Vec d) (h : x ≠ y) (h1 : Real.sin (Real.pi / p * nrm x y) ≠ 0) (h2 : Real.cos (Real.pi / p * nrm x y) ≠ 0) :
    ¬ IsDiv (fun x' => (KExpr.periodic l s p : KExpr d).sem.gradY x' y) ((KExpr.periodic l s p : KExpr d).sem.div x y) x := by
  intro hw
  have hl := checkPos_ok (bind_ok hc).1
  have hs := checkPos_ok (bind_ok hc).2
  have := hw.unique (C10_periodic_error l s p hc hp x y h)
  have h3 : (s - 1) * s * (4 * Real.pi / (p * l ^ 2)) ^ 2 * Real.sin (Real.pi / p * nrm x y) ^ 2
          * Real.cos (Real.pi / p * nrm x y) ^ 2 * Real.exp (-(2 / l ^ 2) * Real.sin (Real.pi / p * nrm x y) ^ 2) ≠ 0 := by
    have := Real.pi_pos
    have : s - 1 ≠ 0 := sub_ne_zero.2 hs1
    positivity
  exact h3 (by linarith)

/-- A concrete instance: output scale 2, one dimension, distance a quarter of the period. -/
example : ¬ IsDiv (fun x' => (KExpr.periodic 1 2 4 : KExpr 1).sem.gradY x' ![0])
    ((KExpr.periodic 1 2 4 : KExpr 1).sem.div ![1] ![0]) ![1] := by
  have hn : nrm (![1] : Vec 1) ![0] = 1 := by simp [nrm_one]
  refine C10_periodic_wrong 1 2 4 ?_ (by norm_num) (by norm_num) _ _ (fun h => by simpa using congrFun h 0) ?_ ?_
  · norm_num [KExpr.check, checkPos, bind, Except.bind]
  · rw [hn, mul_one, Real.sin_pi_div_four]; positivity
  · rw [hn, mul_one, Real.cos_pi_div_four]; positivity

/-- In floating point, the divergence of a first power is NaN wherever the base kernel is zero, whatever the other
values: the factor `0 * 0 ** (-1)`. -/
theorem C10_power_one_nan (dv g : ℝ) : powerDivExt 1 0 dv g = Ext.nan := by
  simp [powerDivExt, extZpow, HMul.hMul, Mul.mul, HAdd.hAdd, Add.add, Ext.mul, Ext.add, Ext.signMul]

/-- Everywhere else the floating-point formula and the real one agree. -/
theorem C10_power_finite (k : KSem d) (n : ℤ) (x y : Vec d) (hn : 1 ≤ n) (h : n ≠ 1 ∨ k.compute x y ≠ 0) :
    powerDivExt n (k.compute x y) (k.div x y) (vdot (k.gradX x y) (k.gradY x y)) = Ext.fin ((powerSem k n).div x y) := by
  have : ¬ (k.compute x y = 0 ∧ n - 2 < 0) := by
    rintro ⟨h1, h2⟩
    rcases h with h | h
    · omega
    · exact h h1
  simp only [powerDivExt, extZpow, if_neg this]
  rfl

example := C10_power_finite (d := 2) (linearSem 1 0) 3 ![1, 2] 0 (by norm_num) (.inl (by norm_num))

/-- No constant kernel occurs. -/
def KExpr.NoConst : KExpr d → Prop
  | .const _ => False
  | .power k _ => k.NoConst
  | .add a b => a.NoConst ∧ b.NoConst
  | .mul a b => a.NoConst ∧ b.NoConst
  | _ => True

theorem gradIsVec_of_noConst (K : KExpr d) (h : K.NoConst) : K.gradIsVec = true := by
  induction K with
  | const c => exact h.elim
  | power k n ih => exact ih h
  | add a b iha _ => simp [KExpr.gradIsVec, iha h.1]
  | mul a b iha _ => simp [KExpr.gradIsVec, iha h.1]
  | _ => rfl

/-- Without constants all gradients have shape `(d,)` and all divergences shape `()`. -/
theorem C10_shapes (K : KExpr d) (h : K.NoConst) : K.gradIsVec = true ∧ K.divIsVec = false := by
  refine ⟨gradIsVec_of_noConst K h, ?_⟩
  induction K with
  | const c => exact h.elim
  | power k n ih => exact ih h
  | add a b iha ihb => simp [KExpr.divIsVec, iha h.1, ihb h.2]
  | mul a b iha ihb =>
    simp [KExpr.divIsVec, iha h.1, ihb h.2, gradIsVec_of_noConst a h.1, gradIsVec_of_noConst b h.2]
  | _ => rfl

example := C10_shapes (.power (.mul (.squaredExponential 1 2) (.laplacian 3 1)) (.int 2) : KExpr 3) ⟨trivial, trivial⟩

/-- Multiplying any such kernel by a number makes the divergence come out with shape `(d,)` instead of `()`. -/
theorem C10_scaled_shape (K K' : KExpr d) (h : K.NoConst) (v : PyNum) (hm : K.mulOp (.num v) = .ok K') :
    K'.divIsVec = true := by
  have hg := gradIsVec_of_noConst K h
  unfold KExpr.mulOp at hm
  dsimp only at hm
  split at hm
  · cases hm
  · cases hm
    have hne : K ≠ .const v.toReal := fun e => by rw [e] at h; exact h
    simp [KExpr.divIsVec, hne, hg, KExpr.gradIsVec]

example : (KExpr.squaredExponential 1 1 : KExpr 3).mulOp (.num (.int 2))
    = .ok (.mul (.squaredExponential 1 1) (.const 2)) := by
  have : ¬ (2 : ℝ) < 0 := by norm_num
  simp only [KExpr.mulOp, checkNonneg, PyNum.toReal, Int.cast_ofNat, this, if_false]

end Coreax
