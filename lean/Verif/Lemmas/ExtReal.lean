import Verif.Model.Basic
import Mathlib.Data.EReal.Inv

/-!
# The floats of the model against the extended reals

`Ext ℝ` is the model's reading of IEEE arithmetic without rounding. Mathlib's `EReal` is an independent definition of the arithmetic of
numbers and infinities; the two agree wherever IEEE gives a number or an infinity, except for the conventions `EReal` makes where IEEE gives NaN.
-/

namespace Coreax.Ext

/-- The extended real of a float that is not NaN. -/
noncomputable def toEReal : Ext ℝ → Option EReal
  | nan => none
  | ninf => some ⊥
  | fin x => some (x : EReal)
  | pinf => some ⊤

theorem toEReal_injective : Function.Injective toEReal := by
  intro a b h
  cases a <;> cases b <;> simp_all [toEReal]

/-- Addition: NaN exactly for NaN operands and for opposite infinities. -/
theorem add_eReal (a b : Ext ℝ) :
    (a + b = nan ↔ a = nan ∨ b = nan ∨ (a = pinf ∧ b = ninf) ∨ (a = ninf ∧ b = pinf)) ∧
    ∀ x y, toEReal a = some x → toEReal b = some y → a + b ≠ nan → toEReal (a + b) = some (x + y) := by
  cases a <;> cases b <;> simp [HAdd.hAdd, Add.add, Ext.add, toEReal] <;> rfl

theorem neg_eReal (a : Ext ℝ) : (-a = nan ↔ a = nan) ∧ ∀ x, toEReal a = some x → toEReal (-a) = some (-x) := by
  cases a <;> simp [Neg.neg, Ext.neg, toEReal] <;> rfl

/-- Subtraction: NaN exactly for NaN operands and for equal infinities. -/
theorem sub_eReal (a b : Ext ℝ) :
    (a - b = nan ↔ a = nan ∨ b = nan ∨ (a = pinf ∧ b = pinf) ∨ (a = ninf ∧ b = ninf)) ∧
    ∀ x y, toEReal a = some x → toEReal b = some y → a - b ≠ nan → toEReal (a - b) = some (x - y) := by
  have e : a - b = a + -b := rfl
  have hn : ∀ c : Ext ℝ, (-c = nan ↔ c = nan) ∧ (-c = ninf ↔ c = pinf) ∧ (-c = pinf ↔ c = ninf) := by
    intro c; cases c <;> simp [Neg.neg, Ext.neg]
  rw [e]
  refine ⟨?_, fun x y hx hy h => ?_⟩
  · rw [(add_eReal a (-b)).1, (hn b).1, (hn b).2.1, (hn b).2.2]
  · rw [(add_eReal a (-b)).2 x (-y) hx ((neg_eReal b).2 y hy) h, sub_eq_add_neg]

/-- Multiplication: NaN exactly for NaN operands and for zero times an infinity. -/
theorem mul_eReal (a b : Ext ℝ) :
    (a * b = nan ↔ a = nan ∨ b = nan ∨ (a = fin 0 ∧ (b = pinf ∨ b = ninf)) ∨ ((a = pinf ∨ a = ninf) ∧ b = fin 0)) ∧
    ∀ x y, toEReal a = some x → toEReal b = some y → a * b ≠ nan → toEReal (a * b) = some (x * y) := by
  have key : ∀ x : ℝ, (signMul x pinf = nan ↔ x = 0) ∧ (signMul x ninf = nan ↔ x = 0) ∧
      (x ≠ 0 → toEReal (signMul x pinf) = some ((x : EReal) * ⊤) ∧ toEReal (signMul x ninf) = some ((x : EReal) * ⊥)) := by
    intro x
    unfold signMul
    rcases lt_trichotomy x 0 with h | h | h
    · simp [h.ne, not_lt.2 h.le, neg, toEReal, EReal.coe_mul_top_of_neg h, EReal.coe_mul_bot_of_neg h]
    · simp [h]
    · simp [h.ne', h, toEReal, EReal.coe_mul_top_of_pos h, EReal.coe_mul_bot_of_pos h]
  have e : a * b = Ext.mul a b := rfl
  rw [e]
  cases a with
  | nan => simp [Ext.mul, toEReal]
  | ninf =>
    cases b with
    | fin y => simp only [Ext.mul]
               refine ⟨by rw [(key y).2.1]; simp, fun x z hx hz h => ?_⟩
               have hy : y ≠ 0 := fun h' => h ((key y).2.1.2 h')
               simp only [toEReal, Option.some.injEq] at hx hz
               rw [((key y).2.2 hy).2, ← hx, ← hz, mul_comm]
    | _ => simp [Ext.mul, toEReal]
  | pinf =>
    cases b with
    | fin y => simp only [Ext.mul]
               refine ⟨by rw [(key y).1]; simp, fun x z hx hz h => ?_⟩
               have hy : y ≠ 0 := fun h' => h ((key y).1.2 h')
               simp only [toEReal, Option.some.injEq] at hx hz
               rw [((key y).2.2 hy).1, ← hx, ← hz, mul_comm]
    | _ => simp [Ext.mul, toEReal]
  | fin x =>
    cases b with
    | nan => simp [Ext.mul, toEReal]
    | fin y => simp [Ext.mul, toEReal]
    | ninf =>
      simp only [Ext.mul]
      refine ⟨by rw [(key x).2.1]; simp, fun u z hx hz h => ?_⟩
      have hy : x ≠ 0 := fun h' => h ((key x).2.1.2 h')
      simp only [toEReal, Option.some.injEq] at hx hz
      rw [((key x).2.2 hy).2, ← hx, ← hz]
    | pinf =>
      simp only [Ext.mul]
      refine ⟨by rw [(key x).1]; simp, fun u z hx hz h => ?_⟩
      have hy : x ≠ 0 := fun h' => h ((key x).1.2 h')
      simp only [toEReal, Option.some.injEq] at hx hz
      rw [((key x).2.2 hy).1, ← hx, ← hz]

/-- Division by anything but zero: NaN exactly for NaN operands and for two infinities. -/
theorem div_eReal (a b : Ext ℝ) (hb : b ≠ fin 0) :
    (a / b = nan ↔ a = nan ∨ b = nan ∨ ((a = pinf ∨ a = ninf) ∧ (b = pinf ∨ b = ninf))) ∧
    ∀ x y, toEReal a = some x → toEReal b = some y → a / b ≠ nan → toEReal (a / b) = some (x / y) := by
  have e : a / b = Ext.div a b := rfl
  rw [e]
  have key : ∀ y : ℝ, y ≠ 0 → (toEReal (if 0 ≤ y then pinf else ninf) = some ((⊤ : EReal) / y)) ∧
      (toEReal (if 0 ≤ y then ninf else pinf) = some ((⊥ : EReal) / y)) := by
    intro y hy
    rcases lt_or_gt_of_ne hy with h | h
    · simp [not_le.2 h, toEReal, EReal.top_div_of_neg_ne_bot (a := (y : EReal)) (by exact_mod_cast h) (EReal.coe_ne_bot y),
        EReal.bot_div_of_neg_ne_bot (a := (y : EReal)) (by exact_mod_cast h) (EReal.coe_ne_bot y)]
    · simp [h.le, toEReal, EReal.top_div_of_pos_ne_top (a := (y : EReal)) (by exact_mod_cast h) (EReal.coe_ne_top y),
        EReal.bot_div_of_pos_ne_top (a := (y : EReal)) (by exact_mod_cast h) (EReal.coe_ne_top y)]
  cases a with
  | nan => simp [Ext.div, toEReal]
  | ninf =>
    cases b with
    | fin y =>
      have hy : y ≠ 0 := by simpa using hb
      refine ⟨by simp only [Ext.div]; split_ifs <;> simp, fun x z hx hz _ => ?_⟩
      simp only [toEReal, Option.some.injEq] at hx hz
      simp only [Ext.div]
      rw [(key y hy).2, ← hx, ← hz]
    | _ => simp [Ext.div, toEReal]
  | pinf =>
    cases b with
    | fin y =>
      have hy : y ≠ 0 := by simpa using hb
      refine ⟨by simp only [Ext.div]; split_ifs <;> simp, fun x z hx hz _ => ?_⟩
      simp only [toEReal, Option.some.injEq] at hx hz
      simp only [Ext.div]
      rw [(key y hy).1, ← hx, ← hz]
    | _ => simp [Ext.div, toEReal]
  | fin x =>
    cases b with
    | fin y =>
      have hy : y ≠ 0 := by simpa using hb
      simp [Ext.div, toEReal, hy, EReal.coe_div]
    | _ => simp [Ext.div, toEReal]

/-- Division by (positive) zero. -/
theorem div_zero_eReal (a : Ext ℝ) :
    (a / fin 0 = nan ↔ a = nan ∨ a = fin 0) ∧
    ∀ x, toEReal a = some x → (0 < x → a / fin 0 = pinf) ∧ (x < 0 → a / fin 0 = ninf) := by
  have e : a / fin 0 = Ext.div a (fin 0) := rfl
  rw [e]
  cases a with
  | fin x =>
    refine ⟨?_, fun y hy => ?_⟩
    · simp only [Ext.div, if_true]
      split_ifs <;> simp_all
    · simp only [toEReal, Option.some.injEq] at hy
      rw [← hy]
      refine ⟨fun h => ?_, fun h => ?_⟩
      · have h' : 0 < x := by exact_mod_cast h
        simp [Ext.div, h', h'.ne']
      · have h' : x < 0 := by exact_mod_cast h
        simp [Ext.div, h'.ne, not_lt.2 h'.le]
  | _ => simp [Ext.div, toEReal]

/-- Comparison: the order of the extended reals, false for NaN. -/
theorem lt_eReal (a b : Ext ℝ) : Ext.lt a b = true ↔ ∃ x y, toEReal a = some x ∧ toEReal b = some y ∧ x < y := by
  cases a <;> cases b <;> simp [Ext.lt, toEReal]

/-- `jnp.maximum(0, x)`. -/
theorem max0_eReal (a : Ext ℝ) : (a.max0 = nan ↔ a = nan) ∧ ∀ x, toEReal a = some x → toEReal a.max0 = some (max 0 x) := by
  cases a <;> simp [Ext.max0, toEReal]
  rfl

/-- The keys of `nanargmax` and `nanargmin` order the floats as the extended reals, with NaN least and greatest respectively. -/
theorem key_eReal (a b : Ext ℝ) (x y : EReal) (ha : toEReal a = some x) (hb : toEReal b = some y) :
    (a.keyMax ≤ b.keyMax ↔ x ≤ y) ∧ (a.keyMin ≤ b.keyMin ↔ x ≤ y) ∧ (nan : Ext ℝ).keyMax ≤ a.keyMax ∧ a.keyMin ≤ (nan : Ext ℝ).keyMin := by
  cases a <;> cases b <;> simp_all [toEReal, keyMax, keyMin] <;> subst_vars <;> simp

end Coreax.Ext
