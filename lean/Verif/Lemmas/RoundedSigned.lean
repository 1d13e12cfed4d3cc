import Verif.Lemmas.Rounding

/-!
# Rounding errors of numbers of either sign

With cancellation the error is relative to the size of the terms, not to the result.
-/

namespace Coreax

namespace Spec

/-- `c` differs from `x` by the error of `p` roundings of quantities of size `A`, which also bounds `x`. -/
def Within (u : ℝ) (p : ℕ) (A x c : ℝ) : Prop := |x| ≤ A ∧ |c - x| ≤ (1 / (1 - u) ^ p - 1) * A

end Spec

open Spec

namespace Spec.Within

variable {u : ℝ} {p q : ℕ} {A B x y c d : ℝ}

theorem one_le (hu0 : 0 ≤ u) (hu : u < 1) (p : ℕ) : 1 ≤ 1 / (1 - u) ^ p := by
  rw [le_div_iff₀ (pow_pos (by linarith) _), one_mul]
  exact pow_le_one₀ (by linarith) (by linarith)

theorem size_nonneg (h : Within u p A x c) : 0 ≤ A := (abs_nonneg _).trans h.1

theorem refl (u : ℝ) (x : ℝ) : Within u 0 |x| x x := by simp [Within]

theorem of_near (hu0 : 0 ≤ u) (hu : u < 1) (hx : 0 ≤ x) (h : Near u p x c) : Within u p x x c :=
  ⟨(abs_of_nonneg hx).le, Near.abs_le hu0 hu hx h⟩

theorem mono (hu0 : 0 ≤ u) (hu : u < 1) (h : Within u p A x c) (hpq : p ≤ q) : Within u q A x c := by
  refine ⟨h.1, h.2.trans (mul_le_mul_of_nonneg_right ?_ h.size_nonneg)⟩
  have : 1 / (1 - u) ^ p ≤ 1 / (1 - u) ^ q :=
    one_div_le_one_div_of_le (pow_pos (by linarith) _) (pow_le_pow_of_le_one (by linarith) (by linarith) hpq)
  linarith

theorem abs_le (h : Within u p A x c) : |c| ≤ 1 / (1 - u) ^ p * A := by
  have : |c| ≤ |c - x| + |x| := by simpa using abs_add_le (c - x) x
  linarith [h.1, h.2]

theorem round_after (hu0 : 0 ≤ u) (hu : u < 1) (h : Within u p A x y) (h' : |c - y| ≤ u * |y|) : Within u (p + 1) A x c := by
  refine ⟨h.1, ?_⟩
  have h1 : |c - x| ≤ |c - y| + |y - x| := by simpa using abs_add_le (c - y) (y - x)
  have h2 := mul_le_mul_of_nonneg_left h.abs_le hu0
  have h3 : (1 + u) * (1 / (1 - u) ^ p) ≤ 1 / (1 - u) ^ (p + 1) := by
    rw [pow_succ, ← div_div, le_div_iff₀ (by linarith)]
    nlinarith [mul_nonneg (le_trans zero_le_one (one_le hu0 hu p)) (sq_nonneg u)]
  have h4 := mul_le_mul_of_nonneg_right h3 h.size_nonneg
  nlinarith [h.2]

theorem add (h : Within u p A x c) (h' : Within u p B y d) : Within u p (A + B) (x + y) (c + d) := by
  refine ⟨(abs_add_le _ _).trans (add_le_add h.1 h'.1), ?_⟩
  rw [show c + d - (x + y) = (c - x) + (d - y) by ring, mul_add]
  exact (abs_add_le _ _).trans (add_le_add h.2 h'.2)

theorem neg (h : Within u p A x c) : Within u p A (-x) (-c) := by
  refine ⟨by rw [abs_neg]; exact h.1, ?_⟩
  rw [show -c - -x = -(c - x) by ring, abs_neg]
  exact h.2

theorem sub (h : Within u p A x c) (h' : Within u p B y d) : Within u p (A + B) (x - y) (c - d) := by
  rw [sub_eq_add_neg, sub_eq_add_neg]
  exact h.add h'.neg

theorem sum {ι : Type*} (s : Finset ι) (F f g : ι → ℝ) (h : ∀ i ∈ s, Within u p (F i) (f i) (g i)) :
    Within u p (∑ i ∈ s, F i) (∑ i ∈ s, f i) (∑ i ∈ s, g i) := by
  refine ⟨(Finset.abs_sum_le_sum_abs _ _).trans (Finset.sum_le_sum fun i hi => (h i hi).1), ?_⟩
  rw [← Finset.sum_sub_distrib, Finset.mul_sum]
  exact (Finset.abs_sum_le_sum_abs _ _).trans (Finset.sum_le_sum fun i hi => (h i hi).2)

theorem mul (hu0 : 0 ≤ u) (hu : u < 1) (h : Within u p A x c) (h' : Within u q B y d) : Within u (p + q) (A * B) (x * y) (c * d) := by
  have hA := h.size_nonneg
  have hB := h'.size_nonneg
  refine ⟨by rw [abs_mul]; exact mul_le_mul h.1 h'.1 (abs_nonneg _) hA, ?_⟩
  rw [show c * d - x * y = (c - x) * d + x * (d - y) by ring]
  have h1 : |(c - x) * d| ≤ ((1 / (1 - u) ^ p - 1) * A) * (1 / (1 - u) ^ q * B) := by
    rw [abs_mul]
    exact mul_le_mul h.2 h'.abs_le (abs_nonneg _) ((abs_nonneg _).trans h.2)
  have h2 : |x * (d - y)| ≤ A * ((1 / (1 - u) ^ q - 1) * B) := by
    rw [abs_mul]
    exact mul_le_mul h.1 h'.2 (abs_nonneg _) hA
  refine (abs_add_le _ _).trans ((add_le_add h1 h2).trans (le_of_eq ?_))
  rw [pow_add, ← div_div]
  ring


/-- Further roundings of quantities that already carry `p` roundings. -/
theorem trans (hu0 : 0 ≤ u) (hu : u < 1) (h : Within u p A x y) (h' : Within u q B y d) (hB : B ≤ 1 / (1 - u) ^ p * A) :
    Within u (p + q) A x d := by
  refine ⟨h.1, ?_⟩
  have h1 : |d - x| ≤ |d - y| + |y - x| := by simpa using abs_add_le (d - y) (y - x)
  have h2 : (1 / (1 - u) ^ q - 1) * B ≤ (1 / (1 - u) ^ q - 1) * (1 / (1 - u) ^ p * A) :=
    mul_le_mul_of_nonneg_left hB (by linarith [one_le hu0 hu q])
  refine h1.trans ((add_le_add (h'.2.trans h2) h.2).trans (le_of_eq ?_))
  rw [pow_add, ← div_div]
  ring

/-- Any order and grouping of additions. -/
theorem of_rsum (hu0 : 0 ≤ u) (hu : u < 1) {l : List ℝ} (h : RSum u l c) :
    0 < l.length ∧ Within u (l.length - 1) (l.map fun a => |a|).sum l.sum c := by
  induction h with
  | one x => simpa using refl u x
  | @add l r a b c hl hr hc ihl ihr =>
    obtain ⟨l1, l2⟩ := ihl
    obtain ⟨r1, r2⟩ := ihr
    have hlen : (l ++ r).length = l.length + r.length := List.length_append
    refine ⟨by omega, ?_⟩
    rw [List.sum_append, List.map_append, List.sum_append]
    have h1 := add (mono hu0 hu l2 (q := l.length + r.length - 2) (by omega)) (mono hu0 hu r2 (q := l.length + r.length - 2) (by omega))
    have h2 := round_after hu0 hu h1 hc
    rwa [hlen, show l.length + r.length - 1 = l.length + r.length - 2 + 1 by omega]
  | @perm l l' c hp _ ih =>
    rw [← hp.length_eq, ← hp.sum_eq, ← (hp.map _).sum_eq]
    exact ih

theorem rsum (hu0 : 0 ≤ u) (hu : u < 1) {n : ℕ} {F f g : Fin n → ℝ} (h : ∀ i, Within u p (F i) (f i) (g i))
    (hs : RSum u (List.ofFn g) c) : Within u (p + (n - 1)) (∑ i, F i) (∑ i, f i) c := by
  have h1 := (of_rsum hu0 hu hs).2
  rw [List.length_ofFn, List.sum_ofFn, List.map_ofFn, List.sum_ofFn] at h1
  refine trans hu0 hu (sum Finset.univ F f g fun i _ => h i) h1 ?_
  rw [Finset.mul_sum]
  exact Finset.sum_le_sum fun i _ => (h i).abs_le

theorem dot (hu0 : 0 ≤ u) (hu : u < 1) {n : ℕ} (hn : 0 < n) {F G f g f' g' prod : Fin n → ℝ}
    (h : ∀ i, Within u p (F i) (f i) (f' i)) (h' : ∀ i, Within u q (G i) (g i) (g' i))
    (hprod : ∀ i, |prod i - f' i * g' i| ≤ u * |f' i * g' i|) (hs : RSum u (List.ofFn prod) c) :
    Within u (p + q + n) (∑ i, F i * G i) (∑ i, f i * g i) c := by
  have := rsum hu0 hu (fun i => round_after hu0 hu (mul hu0 hu (h i) (h' i)) (hprod i)) hs
  rwa [show p + q + 1 + (n - 1) = p + q + n by omega] at this

/-- Division by a number of at most `q` roundings. -/
theorem div (hu0 : 0 ≤ u) (hu : u < 1) (hy : 0 < y) (h : Within u p A x c) (h' : Near u q y d) : Within u (p + q) (A / y) (x / y) (c / d) := by
  have hd := Near.pos hu hy h'
  have h1 : Near u q (1 / y) (1 / d) := by
    have := Near.div hu zero_le_one hy (Near.refl u 1) h'
    rwa [Nat.zero_add] at this
  have := mul hu0 hu h (of_near hu0 hu (by positivity) h1)
  rwa [mul_one_div, mul_one_div, mul_one_div] at this

end Spec.Within

/-- Three scans side by side: the exact numbers, their sizes, and the rounded numbers, each step adding at most `e` roundings. -/
theorem scan_within {u : ℝ} {α α' β β' β'' : Type*} {R : α → α' → Prop} (f : ℝ → α → ℝ × β) (F : ℝ → α → ℝ × β'') (f' : ℝ → α' → ℝ × β') (p e : ℕ)
    (hstep : ∀ (t : ℕ) S s s' a a', Within u (p + t) S s s' → R a a' → Within u (p + t + e) (F S a).1 (f s a).1 (f' s' a').1) :
    ∀ {as : List α} {as' : List α'}, List.Forall₂ R as as' → ∀ (t : ℕ) (S s s' : ℝ), Within u (p + t) S s s' →
      Within u (p + t + e * as.length) (scan F S as).1 (scan f s as).1 (scan f' s' as').1 := by
  intro as as' hR
  induction hR with
  | nil => intro t S s s' h; simpa [scan] using h
  | @cons a a' as as' ha _ ih =>
    intro t S s s' h
    have h3 := ih (t + e) _ _ _ (by rw [← Nat.add_assoc]; exact hstep t S s s' a a' h ha)
    simp only [scan, List.length_cons]
    rwa [show p + t + e * (as.length + 1) = p + (t + e) + e * as.length by ring]

end Coreax
