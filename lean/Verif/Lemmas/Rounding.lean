import Verif.Spec.Rounding
import Verif.Lemmas.Mean
import Mathlib.Algebra.BigOperators.Fin
import Mathlib.Tactic.Linarith
import Mathlib.Tactic.Positivity

/-!
# Calculus of relative errors for non-negative numbers
-/

namespace Coreax

open Spec

namespace Near

variable {u : ℝ} {p q : ℕ} {x y z c d : ℝ}

theorem refl (u : ℝ) (x : ℝ) : Near u 0 x x := by simp [Near]

theorem nonneg (hu : u < 1) (hx : 0 ≤ x) (h : Near u p x c) : 0 ≤ c :=
  le_trans (mul_nonneg (pow_nonneg (by linarith) _) hx) h.1

theorem pos (hu : u < 1) (hx : 0 < x) (h : Near u p x c) : 0 < c :=
  lt_of_lt_of_le (mul_pos (pow_pos (by linarith) _) hx) h.1

theorem trans (hu : u < 1) (h : Near u p x y) (h' : Near u q y z) : Near u (p + q) x z := by
  have h0 : 0 ≤ 1 - u := by linarith
  constructor
  · calc (1 - u) ^ (p + q) * x = (1 - u) ^ q * ((1 - u) ^ p * x) := by ring
      _ ≤ (1 - u) ^ q * y := mul_le_mul_of_nonneg_left h.1 (pow_nonneg h0 _)
      _ ≤ z := h'.1
  · calc (1 - u) ^ (p + q) * z = (1 - u) ^ p * ((1 - u) ^ q * z) := by ring
      _ ≤ (1 - u) ^ p * y := mul_le_mul_of_nonneg_left h'.2 (pow_nonneg h0 _)
      _ ≤ x := h.2

theorem mono (hu0 : 0 ≤ u) (hu : u < 1) (hx : 0 ≤ x) (h : Near u p x c) (hpq : p ≤ q) : Near u q x c := by
  have h0 : 0 ≤ 1 - u := by linarith
  have h1 : (1 - u) ^ q ≤ (1 - u) ^ p := pow_le_pow_of_le_one h0 (by linarith) hpq
  have hc := nonneg hu hx h
  exact ⟨(mul_le_mul_of_nonneg_right h1 hx).trans h.1, (mul_le_mul_of_nonneg_right h1 hc).trans h.2⟩

theorem round (hu0 : 0 ≤ u) (hu : u < 1) (hx : 0 ≤ x) (h : |c - x| ≤ u * |x|) : Near u 1 x c := by
  rw [abs_of_nonneg hx, abs_le] at h
  constructor
  · rw [pow_one]; nlinarith [h.1]
  · rw [pow_one]
    have : c ≤ (1 + u) * x := by linarith [h.2]
    calc (1 - u) * c ≤ (1 - u) * ((1 + u) * x) := mul_le_mul_of_nonneg_left this (by linarith)
      _ = x - u ^ 2 * x := by ring
      _ ≤ x := by nlinarith [mul_nonneg (sq_nonneg u) hx]

theorem round_after (hu0 : 0 ≤ u) (hu : u < 1) (hx : 0 ≤ x) (h : Near u p x y) (h' : |c - y| ≤ u * |y|) : Near u (p + 1) x c :=
  trans hu h (round hu0 hu (nonneg hu hx h) h')

theorem add (h : Near u p x c) (h' : Near u p y d) : Near u p (x + y) (c + d) := by
  constructor
  · rw [mul_add]; exact add_le_add h.1 h'.1
  · rw [mul_add]; exact add_le_add h.2 h'.2

theorem sum {ι : Type*} (s : Finset ι) (f g : ι → ℝ) (h : ∀ i ∈ s, Near u p (f i) (g i)) : Near u p (∑ i ∈ s, f i) (∑ i ∈ s, g i) := by
  constructor
  · rw [Finset.mul_sum]; exact Finset.sum_le_sum fun i hi => (h i hi).1
  · rw [Finset.mul_sum]; exact Finset.sum_le_sum fun i hi => (h i hi).2

theorem mul (hu : u < 1) (hx : 0 ≤ x) (hy : 0 ≤ y) (h : Near u p x c) (h' : Near u q y d) : Near u (p + q) (x * y) (c * d) := by
  have h0 : 0 ≤ 1 - u := by linarith
  have hc := nonneg hu hx h
  have hd := nonneg hu hy h'
  constructor
  · calc (1 - u) ^ (p + q) * (x * y) = ((1 - u) ^ p * x) * ((1 - u) ^ q * y) := by ring
      _ ≤ c * d := mul_le_mul h.1 h'.1 (mul_nonneg (pow_nonneg h0 _) hy) hc
  · calc (1 - u) ^ (p + q) * (c * d) = ((1 - u) ^ p * c) * ((1 - u) ^ q * d) := by ring
      _ ≤ x * y := mul_le_mul h.2 h'.2 (mul_nonneg (pow_nonneg h0 _) hd) hx

theorem div (hu : u < 1) (hx : 0 ≤ x) (hy : 0 < y) (h : Near u p x c) (h' : Near u q y d) : Near u (p + q) (x / y) (c / d) := by
  have h0 : 0 ≤ 1 - u := by linarith
  have hc := nonneg hu hx h
  have hd := pos hu hy h'
  constructor
  · rw [mul_div_assoc', div_le_div_iff₀ hy hd]
    calc (1 - u) ^ (p + q) * x * d = ((1 - u) ^ p * x) * ((1 - u) ^ q * d) := by ring
      _ ≤ c * y := mul_le_mul h.1 h'.2 (mul_nonneg (pow_nonneg h0 _) hd.le) hc
  · rw [mul_div_assoc', div_le_div_iff₀ hd hy]
    calc (1 - u) ^ (p + q) * c * y = ((1 - u) ^ p * c) * ((1 - u) ^ q * y) := by ring
      _ ≤ x * d := mul_le_mul h.2 h'.1 (mul_nonneg (pow_nonneg h0 _) hy.le) hx

/-- The absolute error. -/
theorem abs_le (hu0 : 0 ≤ u) (hu : u < 1) (hx : 0 ≤ x) (h : Near u p x c) : |c - x| ≤ (1 / (1 - u) ^ p - 1) * x := by
  have h0 : 0 < (1 - u) ^ p := pow_pos (by linarith) _
  have h1 : (1 - u) ^ p ≤ 1 := pow_le_one₀ (by linarith) (by linarith)
  have hup : c ≤ x / (1 - u) ^ p := by rw [le_div_iff₀ h0, mul_comm]; exact h.2
  have e : (1 / (1 - u) ^ p - 1) * x = x / (1 - u) ^ p - x := by ring
  rw [e, _root_.abs_le]
  constructor
  · have h2 : (2 - (1 - u) ^ p) * x ≤ x / (1 - u) ^ p := by
      rw [le_div_iff₀ h0]
      nlinarith [mul_nonneg (sq_nonneg (1 - (1 - u) ^ p)) hx]
    linarith [h.1]
  · linarith

end Near

/-- Any order and grouping of `n + 1` additions of non-negative numbers makes at most `n` roundings. -/
theorem RSum.near {u : ℝ} (hu0 : 0 ≤ u) (hu : u < 1) {l : List ℝ} {c : ℝ} (h : RSum u l c) :
    (∀ x ∈ l, 0 ≤ x) → 0 < l.length ∧ Near u (l.length - 1) l.sum c := by
  induction h with
  | one x => intro _; simpa using Near.refl u x
  | @add l r a b c hl hr hc ihl ihr =>
    intro hpos
    obtain ⟨l1, l2⟩ := ihl fun x hx => hpos x (List.mem_append_left _ hx)
    obtain ⟨r1, r2⟩ := ihr fun x hx => hpos x (List.mem_append_right _ hx)
    have hsl : 0 ≤ l.sum := List.sum_nonneg fun x hx => hpos x (List.mem_append_left _ hx)
    have hsr : 0 ≤ r.sum := List.sum_nonneg fun x hx => hpos x (List.mem_append_right _ hx)
    have hlen : (l ++ r).length = l.length + r.length := List.length_append
    refine ⟨by omega, ?_⟩
    rw [List.sum_append]
    have h1 := Near.add (Near.mono hu0 hu hsl l2 (q := l.length + r.length - 2) (by omega))
      (Near.mono hu0 hu hsr r2 (q := l.length + r.length - 2) (by omega))
    have h2 := Near.round_after hu0 hu (add_nonneg hsl hsr) h1 hc
    rwa [hlen, show l.length + r.length - 1 = l.length + r.length - 2 + 1 by omega]
  | @perm l l' c hp _ ih =>
    intro hpos
    obtain ⟨h1, h2⟩ := ih fun x hx => hpos x (hp.mem_iff.1 hx)
    rw [← hp.length_eq, ← hp.sum_eq]
    exact ⟨h1, h2⟩

/-- A rounded dot product of non-negative vectors. -/
theorem near_dot {u : ℝ} (hu0 : 0 ≤ u) (hu : u < 1) {n p q : ℕ} (hn : 0 < n) {f g f' g' prod : Fin n → ℝ} {c : ℝ} (hf : ∀ i, 0 ≤ f i) (hg : ∀ i, 0 ≤ g i)
    (h : ∀ i, Near u p (f i) (f' i)) (h' : ∀ i, Near u q (g i) (g' i))
    (hprod : ∀ i, |prod i - f' i * g' i| ≤ u * |f' i * g' i|) (hs : RSum u (List.ofFn prod) c) :
    Near u (p + q + n) (∑ i, f i * g i) c := by
  have h1 : ∀ i, Near u (p + q + 1) (f i * g i) (prod i) := fun i =>
    Near.round_after hu0 hu (mul_nonneg (hf i) (hg i)) (Near.mul hu (hf i) (hg i) (h i) (h' i)) (hprod i)
  have h2 := (RSum.near hu0 hu hs (by
    intro x hx
    obtain ⟨i, rfl⟩ := List.mem_ofFn.1 hx
    exact Near.nonneg hu (mul_nonneg (hf i) (hg i)) (h1 i))).2
  rw [List.length_ofFn, List.sum_ofFn] at h2
  have h3 := Near.trans hu (Near.sum Finset.univ _ _ fun i _ => h1 i) h2
  rwa [show p + q + 1 + (n - 1) = p + q + n by omega] at h3

/-- Two scans side by side, each step adding at most `e` roundings. -/
theorem scan_near {u : ℝ} {α α' β β' : Type*} {R : α → α' → Prop} (f : ℝ → α → ℝ × β) (f' : ℝ → α' → ℝ × β') (p e : ℕ)
    (hstep : ∀ (t : ℕ) s s' a a', 0 ≤ s → Near u (p + t) s s' → R a a' → 0 ≤ (f s a).1 ∧ Near u (p + t + e) (f s a).1 (f' s' a').1) :
    ∀ {as : List α} {as' : List α'}, List.Forall₂ R as as' → ∀ (t : ℕ) (s s' : ℝ), 0 ≤ s → Near u (p + t) s s' →
      0 ≤ (scan f s as).1 ∧ Near u (p + t + e * as.length) (scan f s as).1 (scan f' s' as').1 := by
  intro as as' hR
  induction hR with
  | nil => intro t s s' h0 h; simpa [scan] using ⟨h0, h⟩
  | @cons a a' as as' ha _ ih =>
    intro t s s' h0 h
    obtain ⟨h1, h2⟩ := hstep t s s' a a' h0 h ha
    have h3 := ih (t + e) _ _ h1 (by rwa [← Nat.add_assoc])
    simp only [scan, List.length_cons]
    rwa [show p + t + e * (as.length + 1) = p + (t + e) + e * as.length by ring]

end Coreax
