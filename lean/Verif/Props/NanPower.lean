import Verif.Props.NotANumber

/-!
# C98: The first power of a kernel

`PowerKernel.__check_init__` admits the power one. Its value and gradients are those of the base kernel even where these are not numbers, since `c ** 0` is one whatever `c` is. Its
divergence contains `0 * c ** -1`.
-/

namespace Coreax

open Ext

variable {d : ℕ}

theorem NanPower.pow_zero (c : Ext ℝ) : extPow c 0 = fin 1 := by
  cases c <;> simp [extPow, extZpow]

theorem NanPower.pow_one (c : Ext ℝ) : extPow c 1 = c := by
  cases c <;> simp [extPow, extZpow]

theorem NanPower.one_mul (c : Ext ℝ) : fin 1 * c = c := by
  change Ext.mul (fin 1) c = c
  cases c <;> simp [Ext.mul, Ext.signMul]

theorem NanPower.mul_one (c : Ext ℝ) : c * fin 1 = c := by
  change Ext.mul c (fin 1) = c
  cases c <;> simp [Ext.mul, Ext.signMul]

/-- C98: the first power has the values and the gradients of its base, whatever these are; its divergence is the base's where the base value is a number other than
zero and the gradients are numbers, and is not a number where the base value is zero or not a number. -/
theorem C98_power_one (k : KSemX d) (x y : Vec d) :
    (powerX k 1).compute x y = k.compute x y ∧ (∀ i, (powerX k 1).gradX x y i = k.gradX x y i ∧ (powerX k 1).gradY x y i = k.gradY x y i) ∧
    (∀ c : ℝ, c ≠ 0 → k.compute x y = fin c → (∃ v : ℝ, ∑ i, k.gradX x y i * k.gradY x y i = fin v) → ∀ v : ℝ, k.div x y = fin v →
      (powerX k 1).div x y = fin v) ∧
    (k.compute x y = fin 0 ∨ k.compute x y = nan → (powerX k 1).div x y = nan) := by
  refine ⟨NanPower.pow_one _, fun i => ⟨?_, ?_⟩, ?_, ?_⟩
  · simp [powerX, NanPower.pow_zero, NanPower.one_mul, NanPower.mul_one]
  · simp [powerX, NanPower.pow_zero, NanPower.one_mul, NanPower.mul_one]
  · rintro c hc hk ⟨g, hg⟩ v hv
    simp only [powerX, hk, hg, hv]
    norm_num [extPow, extZpow, hc, NanPower.one_mul]
  · intro h
    have e : fin ((0 : ℤ) : ℝ) * extPow (k.compute x y) (-1) = nan := by
      rcases h with h | h <;> rw [h]
      · change Ext.mul _ _ = _
        simp [extPow, extZpow, Ext.mul, Ext.signMul]
      · change Ext.mul _ _ = _
        simp [extPow, Ext.mul]
    simp only [powerX]
    norm_num at e ⊢
    rw [e]
    simp

/-- The linear kernel at perpendicular points. -/
example : (powerX (KExpr.linear 1 0 : KExpr 2).semX 1).div ![1, 0] ![0, 1] = nan :=
  (C98_power_one _ _ _).2.2.2 (.inl (by simp [KExpr.semX, KSem.toX, KExpr.sem, linearSem, vdot]))

/-- A kernel that is not a number off the diagonal and has the gradient one there. -/
example : (powerX (⟨fun x y => if x = y then fin 1 else nan, fun _ _ _ => fin 1, fun _ _ _ => fin 1, fun _ _ => fin 1⟩ : KSemX 2) 1).gradX ![1, 0] ![0, 1] 0 = fin 1 :=
  ((C98_power_one _ _ _).2.1 0).1

example : (powerX (⟨fun _ _ => fin 3, fun _ _ _ => fin 1, fun _ _ _ => fin 1, fun _ _ => fin 5⟩ : KSemX 2) 1).div ![1, 0] ![0, 1] = fin 5 :=
  (C98_power_one _ _ _).2.2.1 3 (by norm_num) rfl ⟨1 * 1 + 1 * 1, by simp only [Fin.sum_univ_two, fin_mul_fin, fin_add_fin]⟩ 5 rfl

end Coreax
