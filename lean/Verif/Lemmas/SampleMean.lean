import Verif.Spec.Basic
import Mathlib.Algebra.BigOperators.Ring.Finset
import Mathlib.Algebra.BigOperators.Field
import Mathlib.Data.Fintype.BigOperators
import Mathlib.Data.Real.Basic
import Mathlib.Tactic.FieldSimp
import Mathlib.Tactic.Linarith
import Mathlib.Tactic.Ring
import Mathlib.Tactic.Positivity
import Mathlib.Logic.Equiv.Fintype
import Mathlib.Algebra.BigOperators.Group.Finset.Basic

/-!
# Means of the squared MMD over laws of index tuples

A law of `m` indices below `n` is a function of tuples.  The mean of the squared MMD of the tuple's points only depends on the law of single
entries and of pairs of entries.
-/

namespace Coreax.Sample

open Spec

variable {n m : ℕ}

/-- The law of one entry. -/
noncomputable def marg (law : (Fin m → Fin n) → ℝ) (t : Fin m) (a : Fin n) : ℝ := ∑ i, law i * if i t = a then 1 else 0

/-- The law of two entries. -/
noncomputable def marg2 (law : (Fin m → Fin n) → ℝ) (s t : Fin m) (a b : Fin n) : ℝ := ∑ i, law i * if i s = a ∧ i t = b then 1 else 0

theorem mean_one (law : (Fin m → Fin n) → ℝ) (t : Fin m) (f : Fin n → ℝ) : ∑ i, law i * f (i t) = ∑ a, marg law t a * f a := by
  simp only [marg, Finset.sum_mul]
  rw [Finset.sum_comm]
  refine Finset.sum_congr rfl fun i _ => ?_
  rw [Finset.sum_eq_single (i t)]
  · simp
  · intro a _ h; simp [Ne.symm h]
  · simp

theorem mean_two (law : (Fin m → Fin n) → ℝ) (s t : Fin m) (g : Fin n → Fin n → ℝ) :
    ∑ i, law i * g (i s) (i t) = ∑ a, ∑ b, marg2 law s t a b * g a b := by
  simp only [marg2, Finset.sum_mul]
  rw [Finset.sum_congr rfl fun a _ => Finset.sum_comm, Finset.sum_comm]
  refine Finset.sum_congr rfl fun i _ => ?_
  rw [Finset.sum_eq_single (i s)]
  · rw [Finset.sum_eq_single (i t)]
    · simp
    · intro a _ h; simp [Ne.symm h]
    · simp
  · intro a _ h; simp [Ne.symm h]
  · simp

theorem avg_one {m : ℕ} (f : Fin m → ℝ) : avg (fun _ => 1) f = (∑ t, f t) / m := by
  simp [avg]

theorem mmdSq_points {X : Type*} (k : X → X → ℝ) (x : Fin n → X) (w : Fin n → ℝ) (i : Fin m → Fin n) :
    mmdSq k x w (fun t => x (i t)) (fun _ => 1) = avg w (fun a => avg w fun b => k (x a) (x b))
      - 2 * ((∑ t, avg w fun a => k (x a) (x (i t))) / m) + (∑ s, ∑ t, k (x (i s)) (x (i t))) / m / m := by
  unfold mmdSq
  have h1 : avg w (fun a => avg (fun _ : Fin m => (1 : ℝ)) fun t => k (x a) (x (i t))) = (∑ t, avg w fun a => k (x a) (x (i t))) / m := by
    simp only [avg_one]
    simp only [avg, mul_div_assoc', ← Finset.sum_div, Finset.mul_sum]
    rw [Finset.sum_comm, div_right_comm]
  rw [h1]
  simp only [avg_one, ← Finset.sum_div]

/-- The mean from the laws of one and of two entries. -/
theorem mean_mmdSq {X : Type*} (k : X → X → ℝ) (x : Fin n → X) (w : Fin n → ℝ) (hm : 0 < m) (law : (Fin m → Fin n) → ℝ) (h0 : ∑ i, law i = 1)
    (p : Fin n → ℝ) (q : Fin n → Fin n → ℝ) (hp : ∀ t a, marg law t a = p a) (hq : ∀ s t, s ≠ t → ∀ a b, marg2 law s t a b = q a b) :
    ∑ i, law i * mmdSq k x w (fun t => x (i t)) (fun _ => 1) = avg w (fun a => avg w fun b => k (x a) (x b))
      - 2 * (∑ b, p b * avg w fun a => k (x a) (x b)) + (1 / m) * (∑ a, p a * k (x a) (x a)) + (1 - 1 / m) * ∑ a, ∑ b, q a b * k (x a) (x b) := by
  have hm' : (m : ℝ) ≠ 0 := by positivity
  have e1 : ∀ t, ∑ i : Fin m → Fin n, law i * (avg w fun a => k (x a) (x (i t))) = ∑ b, p b * avg w fun a => k (x a) (x b) := by
    intro t
    rw [mean_one law t (fun b => avg w fun a => k (x a) (x b))]
    simp only [hp]
  have e2 : ∀ s t, ∑ i : Fin m → Fin n, law i * k (x (i s)) (x (i t)) = if s = t then ∑ a, p a * k (x a) (x a) else ∑ a, ∑ b, q a b * k (x a) (x b) := by
    intro s t
    split_ifs with h
    · subst h
      rw [mean_one law s (fun b => k (x b) (x b))]
      simp only [hp]
    · rw [mean_two law s t (fun a b => k (x a) (x b))]
      simp only [hq s t h]
  have e3 : ∑ i : Fin m → Fin n, law i * (∑ s, ∑ t, k (x (i s)) (x (i t))) =
      m * (∑ a, p a * k (x a) (x a)) + (m * m - m) * ∑ a, ∑ b, q a b * k (x a) (x b) := by
    simp only [Finset.mul_sum (s := (Finset.univ : Finset (Fin m)))]
    rw [Finset.sum_comm, Finset.sum_congr rfl fun s _ => Finset.sum_comm]
    simp only [e2]
    have : ∀ s : Fin m, (∑ t : Fin m, if s = t then ∑ a, p a * k (x a) (x a) else ∑ a, ∑ b, q a b * k (x a) (x b))
        = (∑ a, p a * k (x a) (x a)) + (m - 1) * ∑ a, ∑ b, q a b * k (x a) (x b) := by
      intro s
      rw [← Finset.add_sum_erase _ _ (Finset.mem_univ s), if_pos rfl]
      congr 1
      rw [Finset.sum_congr rfl (g := fun _ => ∑ a, ∑ b, q a b * k (x a) (x b)) fun t ht => if_neg (Finset.ne_of_mem_erase ht).symm]
      rw [Finset.sum_const, Finset.card_erase_of_mem (Finset.mem_univ s), Finset.card_univ, Fintype.card_fin, nsmul_eq_mul, Nat.cast_sub hm, Nat.cast_one]
    simp only [this, Finset.sum_const, Finset.card_univ, Fintype.card_fin, nsmul_eq_mul]
    ring
  have e4 : ∑ i : Fin m → Fin n, law i * (∑ t, avg w fun a => k (x a) (x (i t))) = m * ∑ b, p b * avg w fun a => k (x a) (x b) := by
    simp only [Finset.mul_sum (s := (Finset.univ : Finset (Fin m)))]
    rw [Finset.sum_comm]
    simp only [e1, Finset.sum_const, Finset.card_univ, Fintype.card_fin, nsmul_eq_mul]
  have e5 : ∀ i : Fin m → Fin n, law i * mmdSq k x w (fun t => x (i t)) (fun _ => 1)
      = law i * (avg w (fun a => avg w fun b => k (x a) (x b))) - 2 / m * (law i * (∑ t, avg w fun a => k (x a) (x (i t))))
        + 1 / m / m * (law i * (∑ s, ∑ t, k (x (i s)) (x (i t)))) := by
    intro i
    rw [mmdSq_points]
    field_simp
  rw [Finset.sum_congr rfl fun i _ => e5 i, Finset.sum_add_distrib, Finset.sum_sub_distrib, ← Finset.sum_mul, ← Finset.mul_sum, ← Finset.mul_sum, h0, e3, e4]
  field_simp
  ring

/-! ### Independent entries -/

theorem sum_prod {f : Fin m → Fin n → ℝ} : ∑ i : Fin m → Fin n, ∏ t, f t (i t) = ∏ t, ∑ a, f t a := by
  rw [Finset.prod_univ_sum]
  simp

theorem indep_total {p : Fin n → ℝ} (hp : ∑ a, p a = 1) : ∑ i : Fin m → Fin n, ∏ t, p (i t) = 1 := by
  rw [sum_prod (f := fun _ => p)]
  simp [hp]

theorem indep_marg {p : Fin n → ℝ} (hp : ∑ a, p a = 1) (t : Fin m) (a : Fin n) : marg (fun i => ∏ t, p (i t)) t a = p a := by
  have h : ∀ i : Fin m → Fin n, (∏ t, p (i t)) * (if i t = a then 1 else 0) = ∏ r, (p (i r) * if r = t then (if i r = a then 1 else 0) else 1) := by
    intro i
    rw [Finset.prod_mul_distrib]
    congr 1
    rw [Finset.prod_ite_eq' Finset.univ t (fun r => if i r = a then (1 : ℝ) else 0)]
    simp
  simp only [marg, h]
  rw [sum_prod (f := fun r b => p b * if r = t then (if b = a then 1 else 0) else 1), Finset.prod_eq_single t]
  · simp
  · intro r _ hr; simp [hr, hp]
  · simp

theorem indep_marg2 {p : Fin n → ℝ} (hp : ∑ a, p a = 1) {s t : Fin m} (hst : s ≠ t) (a b : Fin n) :
    marg2 (fun i => ∏ t, p (i t)) s t a b = p a * p b := by
  have h : ∀ i : Fin m → Fin n, (∏ t, p (i t)) * (if i s = a ∧ i t = b then 1 else 0)
      = ∏ r, (p (i r) * ((if r = s then (if i r = a then 1 else 0) else 1) * if r = t then (if i r = b then 1 else 0) else 1)) := by
    intro i
    rw [Finset.prod_mul_distrib, Finset.prod_mul_distrib]
    congr 1
    rw [Finset.prod_ite_eq' Finset.univ t (fun r => if i r = b then (1 : ℝ) else 0), Finset.prod_ite_eq' Finset.univ s (fun r => if i r = a then (1 : ℝ) else 0)]
    by_cases h1 : i s = a <;> by_cases h2 : i t = b <;> simp [h1, h2]
  simp only [marg2, h]
  rw [sum_prod (f := fun r c => p c * ((if r = s then (if c = a then 1 else 0) else 1) * if r = t then (if c = b then 1 else 0) else 1)),
    ← Finset.mul_prod_erase _ _ (Finset.mem_univ s), ← Finset.mul_prod_erase _ _ (Finset.mem_erase.2 ⟨hst.symm, Finset.mem_univ t⟩), Finset.prod_eq_one]
  · simp [hst, hst.symm]
  · intro r hr
    have h2 := Finset.ne_of_mem_erase hr
    have h1 := Finset.ne_of_mem_erase (Finset.mem_of_mem_erase hr)
    simp [h1, h2, hp]

/-! ### Distinct entries -/

/-- A law that only depends on the tuple being injective. -/
structure Distinct (law : (Fin m → Fin n) → ℝ) : Prop where
  zero : ∀ i, ¬ Function.Injective i → law i = 0
  equal : ∀ i j, Function.Injective i → Function.Injective j → law i = law j
  total : ∑ i, law i = 1

theorem Distinct.perm {law : (Fin m → Fin n) → ℝ} (h : Distinct law) (σ : Equiv.Perm (Fin n)) (i : Fin m → Fin n) : law (σ ∘ i) = law i := by
  by_cases hi : Function.Injective i
  · exact h.equal _ _ (σ.injective.comp hi) hi
  · rw [h.zero _ hi, h.zero]
    intro h2; exact hi (Function.Injective.of_comp h2)

theorem Distinct.marg_perm {law : (Fin m → Fin n) → ℝ} (h : Distinct law) (σ : Equiv.Perm (Fin n)) (t : Fin m) (a : Fin n) : marg law t (σ a) = marg law t a := by
  unfold marg
  rw [← Equiv.sum_comp (Equiv.arrowCongr (Equiv.refl (Fin m)) σ)]
  refine Finset.sum_congr rfl fun i _ => ?_
  have : (Equiv.arrowCongr (Equiv.refl (Fin m)) σ) i = σ ∘ i := rfl
  rw [this, h.perm]
  simp

theorem Distinct.marg2_perm {law : (Fin m → Fin n) → ℝ} (h : Distinct law) (σ : Equiv.Perm (Fin n)) (s t : Fin m) (a b : Fin n) :
    marg2 law s t (σ a) (σ b) = marg2 law s t a b := by
  unfold marg2
  rw [← Equiv.sum_comp (Equiv.arrowCongr (Equiv.refl (Fin m)) σ)]
  refine Finset.sum_congr rfl fun i _ => ?_
  have : (Equiv.arrowCongr (Equiv.refl (Fin m)) σ) i = σ ∘ i := rfl
  rw [this, h.perm]
  simp

theorem Distinct.marg_eq {law : (Fin m → Fin n) → ℝ} (h : Distinct law) (t : Fin m) (a : Fin n) : marg law t a = 1 / n := by
  have h1 : ∀ b, marg law t b = marg law t a := by
    intro b
    have := h.marg_perm (Equiv.swap a b) t a
    rwa [Equiv.swap_apply_left] at this
  have h2 : ∑ b, marg law t b = 1 := by
    have := mean_one law t (fun _ => 1)
    simp only [mul_one] at this
    rw [← this, h.total]
  simp only [h1, Finset.sum_const, Finset.card_univ, Fintype.card_fin, nsmul_eq_mul] at h2
  rw [eq_div_iff, mul_comm, h2]
  intro h0; rw [h0, zero_mul] at h2; exact zero_ne_one h2

theorem Distinct.marg2_eq {law : (Fin m → Fin n) → ℝ} (h : Distinct law) {s t : Fin m} (hst : s ≠ t) (a b : Fin n) :
    marg2 law s t a b = if a = b then (0 : ℝ) else 1 / ((n : ℝ) * (n - 1)) := by
  have hz : ∀ a, marg2 law s t a a = 0 := by
    intro a
    refine Finset.sum_eq_zero fun i _ => ?_
    by_cases hi : Function.Injective i
    · rw [if_neg, mul_zero]
      rintro ⟨h1, h2⟩
      exact hst (hi (h1.trans h2.symm))
    · rw [h.zero i hi, zero_mul]
  split_ifs with hab
  · rw [hab]; exact hz b
  · have h1 : ∀ c d, c ≠ d → marg2 law s t c d = marg2 law s t a b := by
      intro c d hcd
      obtain ⟨σ, h2, h3⟩ : ∃ σ : Equiv.Perm (Fin n), σ a = c ∧ σ b = d := by
        refine ⟨(Equiv.swap a c).trans (Equiv.swap (Equiv.swap a c b) d), ?_, ?_⟩
        · simp only [Equiv.trans_apply, Equiv.swap_apply_left]
          refine Equiv.swap_apply_of_ne_of_ne ?_ hcd
          intro h
          have := congrArg (Equiv.swap a c) h
          rw [Equiv.swap_apply_right, Equiv.swap_apply_self] at this
          exact hab this
        · simp
      rw [← h2, ← h3, h.marg2_perm]
    have h2 : ∑ c, ∑ d, marg2 law s t c d = 1 := by
      have := mean_two law s t (fun _ _ => 1)
      simp only [mul_one] at this
      rw [← this, h.total]
    have h3 : ∀ c, ∑ d, marg2 law s t c d = (n - 1) * marg2 law s t a b := by
      intro c
      rw [← Finset.add_sum_erase _ _ (Finset.mem_univ c), hz, zero_add,
        Finset.sum_congr rfl fun d hd => h1 c d (Finset.ne_of_mem_erase hd).symm]
      rw [Finset.sum_const, Finset.card_erase_of_mem (Finset.mem_univ c), Finset.card_univ, Fintype.card_fin, nsmul_eq_mul, Nat.cast_sub (Nat.succ_le_of_lt (Fin.pos c)),
        Nat.cast_one]
    simp only [h3, Finset.sum_const, Finset.card_univ, Fintype.card_fin, nsmul_eq_mul] at h2
    rw [← mul_assoc] at h2
    rw [eq_div_iff, mul_comm, h2]
    intro h0; rw [h0, zero_mul] at h2; exact zero_ne_one h2

end Coreax.Sample
