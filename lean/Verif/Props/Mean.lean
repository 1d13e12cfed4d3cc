import Verif.Lemmas.Mean
import Verif.Spec.Basic
import Mathlib.Algebra.BigOperators.Field

/-!
# C05, C06: the blocked kernel mean

`compute_mean` and `gramian_row_mean` of `/repo/coreax/kernels/base.py`.
-/

set_option linter.unusedSectionVars false

namespace Coreax

open Spec

variable {X K : Type*} [Zero X] [Field K] [LinearOrder K]

/-- A usable `block_size` argument: a single leaf or a pair of leaves (`None` or any integer). -/
def ValidBlock (bs : PyTree (Option ℤ)) : Prop := bs.leaves.length = 1 ∨ bs.leaves.length = 2

theorem treeLeavesRepeat_of_valid {bs : PyTree (Option ℤ)} (h : ValidBlock bs) :
    ∃ a b, treeLeavesRepeat bs 2 = [a, b] := by
  unfold treeLeavesRepeat
  rcases h with h | h
  · obtain ⟨a, ha⟩ := List.length_eq_one_iff.1 h
    exact ⟨a, a, by simp [ha]⟩
  · obtain ⟨a, b, hab⟩ := List.length_eq_two.1 h
    exact ⟨a, b, by simp [hab]⟩

theorem treeLeavesRepeat_of_invalid {bs : PyTree (Option ℤ)} (h : ¬ ValidBlock bs) :
    (treeLeavesRepeat bs 2).length ≠ 2 := by
  unfold treeLeavesRepeat ValidBlock at *
  push Not at h
  rcases hl : bs.leaves with _ | ⟨a, l⟩
  · simp
  · rw [hl] at h
    simp only [List.length_cons] at h
    have : 2 - (l.length + 1) = 0 := by omega
    simp only [List.length_cons, this, List.replicate_zero, List.flatten_nil, List.append_nil]
    omega

theorem normWeightsPZ_of_sum_ne {n : ℕ} (big : K) {w : Fin n → K} (h : ∑ i, w i ≠ 0) (i : Fin n) :
    normWeightsPZ big w i = w i / ∑ j, w j := by
  show Ext.nanToNum big (Ext.div (Ext.fin (w i)) (Ext.fin (∑ j, w j))) = _
  simp [Ext.div, h, Ext.nanToNum]

theorem normWeightsPZ_of_zero {n : ℕ} (big : K) {w : Fin n → K} (h : ∀ i, w i = 0) (i : Fin n) :
    normWeightsPZ big w i = 0 := by
  show Ext.nanToNum big (Ext.div (Ext.fin (w i)) (Ext.fin (∑ j, w j))) = _
  simp [Ext.div, h, Ext.nanToNum]

theorem normWeightsPZ_sum_mul {n : ℕ} (big : K) {w : Fin n → K} (h : ∑ i, w i ≠ 0) (f : Fin n → K) :
    ∑ i, f i * normWeightsPZ big w i = avg w f := by
  simp only [normWeightsPZ_of_sum_ne big h, avg, Finset.sum_div]
  exact Finset.sum_congr rfl (fun i _ => by ring)

/-- `axis=1`: entry `i` is the weighted average of `k(x_i, ·)` over `y`, for every block size. -/
theorem C05_mean_axis1 (big : K) (k : X → X → K) {n m : ℕ} (hn : 0 < n) (hm : 0 < m) (x : Data n X K)
    (y : Data m X K) (hy : ∑ j, y.weights j ≠ 0) (bs : PyTree (Option ℤ)) (hbs : ValidBlock bs) :
    computeMean big k x y .one bs
      = .ok (List.ofFn fun i => avg y.weights (fun j => k (x.data i) (y.data j))) := by
  obtain ⟨a, b, hab⟩ := treeLeavesRepeat_of_valid hbs
  simp only [computeMean, hab, columnMean_eq big k hn hm, normWeightsPZ_sum_mul big hy]

example := C05_mean_axis1 1000 (fun a b : ℚ => a * b + 1) (by norm_num) (by norm_num) (⟨![5, 7, 9], ![1, 0, 3]⟩ : Data 3 ℚ ℚ) (⟨![2, 4], ![1, -3]⟩ : Data 2 ℚ ℚ) (by decide +kernel) (.leaf (some 2)) (.inl rfl)

/-- `axis=0` for a symmetric kernel: entry `j` is the weighted average of `k(·, y_j)` over `x`. -/
theorem C05_mean_axis0 (big : K) (k : X → X → K) (hk : ∀ a b, k a b = k b a) {n m : ℕ} (hn : 0 < n)
    (hm : 0 < m) (x : Data n X K) (y : Data m X K) (hx : ∑ j, x.weights j ≠ 0)
    (bs : PyTree (Option ℤ)) (hbs : ValidBlock bs) :
    computeMean big k x y .zero bs
      = .ok (List.ofFn fun j => avg x.weights (fun i => k (x.data i) (y.data j))) := by
  obtain ⟨a, b, hab⟩ := treeLeavesRepeat_of_valid hbs
  simp only [computeMean, hab, columnMean_eq big k hm hn, normWeightsPZ_sum_mul big hx]
  congr 2
  funext j
  congr 1
  funext i
  exact hk _ _

example := C05_mean_axis0 1000 (fun a b : ℚ => a * b + 1) (fun a b => by ring) (by norm_num) (by norm_num) (⟨![5, 7, 9], ![1, 0, 3]⟩ : Data 3 ℚ ℚ) (⟨![2, 4], ![1, -3]⟩ : Data 2 ℚ ℚ) (by decide +kernel) (.leaf (some 2)) (.inl rfl)

/-- `axis=0` without symmetry: the arguments of the kernel are exchanged with respect to the documentation. -/
theorem C05_mean_axis0_swaps (big : K) (k : X → X → K) {n m : ℕ} (hn : 0 < n)
    (hm : 0 < m) (x : Data n X K) (y : Data m X K) (hx : ∑ j, x.weights j ≠ 0)
    (bs : PyTree (Option ℤ)) (hbs : ValidBlock bs) :
    computeMean big k x y .zero bs
      = .ok (List.ofFn fun j => avg x.weights (fun i => k (y.data j) (x.data i))) := by
  obtain ⟨a, b, hab⟩ := treeLeavesRepeat_of_valid hbs
  simp only [computeMean, hab, columnMean_eq big k hm hn, normWeightsPZ_sum_mul big hx]

example := C05_mean_axis0_swaps 1000 (fun a b : ℚ => a * b + a) (by norm_num) (by norm_num) (⟨![5, 7, 9], ![1, 0, 3]⟩ : Data 3 ℚ ℚ) (⟨![2, 4], ![1, -3]⟩ : Data 2 ℚ ℚ) (by decide +kernel) (.leaf (some 2)) (.inl rfl)

/-- `axis=None`: the doubly weighted average of the kernel matrix. -/
theorem C05_mean_none (big : K) (k : X → X → K) {n m : ℕ} (hn : 0 < n) (hm : 0 < m) (x : Data n X K)
    (y : Data m X K) (hx : ∑ j, x.weights j ≠ 0) (hy : ∑ j, y.weights j ≠ 0)
    (bs : PyTree (Option ℤ)) (hbs : ValidBlock bs) :
    computeMean big k x y .none bs
      = .ok [avg x.weights fun i => avg y.weights fun j => k (x.data i) (y.data j)] := by
  obtain ⟨a, b, hab⟩ := treeLeavesRepeat_of_valid hbs
  simp only [computeMean, hab, columnMean_eq big k hn hm, normWeightsPZ_sum_mul big hy]
  rw [← normWeightsPZ_sum_mul big hx]
  simp only [mul_comm]

example := C05_mean_none 1000 (fun a b : ℚ => a * b + 1) (by norm_num) (by norm_num) (⟨![5, 7, 9], ![1, 0, 3]⟩ : Data 3 ℚ ℚ) (⟨![2, 4], ![1, -3]⟩ : Data 2 ℚ ℚ) (by decide +kernel) (by decide +kernel) (.leaf (some 2)) (.inl rfl)

/-- Operands whose weights are all zero contribute zero (not NaN). -/
theorem C05_mean_zero_weights (big : K) (k : X → X → K) {n m : ℕ} (hn : 0 < n) (hm : 0 < m) (x : Data n X K)
    (y : Data m X K) (hy : ∀ j, y.weights j = 0) (bs : PyTree (Option ℤ)) (hbs : ValidBlock bs) :
    computeMean big k x y .one bs = .ok (List.replicate n 0) ∧
    computeMean big k x y .none bs = .ok [0] := by
  obtain ⟨a, b, hab⟩ := treeLeavesRepeat_of_valid hbs
  simp [computeMean, hab, columnMean_eq big k hn hm, normWeightsPZ_of_zero big hy]

example := C05_mean_zero_weights 1000 (fun a b : ℚ => a * b + 1) (by norm_num) (by norm_num) (⟨![5, 7, 9], ![1, 0, 3]⟩ : Data 3 ℚ ℚ) (⟨![5, 7], ![0, 0]⟩ : Data 2 ℚ ℚ) (by decide +kernel) (.leaf (some 2)) (.inl rfl)

/-- The block size never changes any result: any two valid block sizes agree, for every kernel (symmetric or
not), every axis and all weights (also when sums vanish). -/
theorem C05_block_size_irrelevant (big : K) (k : X → X → K) {n m : ℕ} (x : Data n X K) (y : Data m X K)
    (axis : Axis) (bs bs' : PyTree (Option ℤ)) (hbs : ValidBlock bs) (hbs' : ValidBlock bs') :
    computeMean big k x y axis bs = computeMean big k x y axis bs' := by
  obtain ⟨a, b, hab⟩ := treeLeavesRepeat_of_valid hbs
  obtain ⟨a', b', hab'⟩ := treeLeavesRepeat_of_valid hbs'
  rcases Nat.eq_zero_or_pos n with hn | hn
  · cases axis <;> simp [computeMean, hab, hab', columnMean_error big k (Or.inl hn),
      columnMean_error big k (Or.inr hn)]
  rcases Nat.eq_zero_or_pos m with hm | hm
  · cases axis <;> simp [computeMean, hab, hab', columnMean_error big k (Or.inl hm),
      columnMean_error big k (Or.inr hm)]
  · cases axis <;> simp [computeMean, hab, hab', columnMean_eq big k hn hm, columnMean_eq big k hm hn]

example := C05_block_size_irrelevant 1000 (fun a b : ℚ => a * b + 1) (⟨![5, 7, 9], ![1, 0, 3]⟩ : Data 3 ℚ ℚ) (⟨![2, 4], ![1, -3]⟩ : Data 2 ℚ ℚ) .none (.leaf (some 2)) (.leaf none) (.inl rfl) (.inl rfl)

/-- Error branches: with a valid block size an empty operand, and only that, fails (`ZeroDivisionError`: line 35
of `kernels/util.py` divides before the `ValueError` of line 44 can be raised); an invalid block size always is a
`ValueError`. -/
theorem C05_mean_errors (big : K) (k : X → X → K) {n m : ℕ} (x : Data n X K) (y : Data m X K)
    (axis : Axis) (bs : PyTree (Option ℤ)) :
    (ValidBlock bs → (n = 0 ∨ m = 0) → computeMean big k x y axis bs = .error .zeroDivisionError) ∧
    (ValidBlock bs → 0 < n → 0 < m → ∃ l, computeMean big k x y axis bs = .ok l ∧
      l.length = (match axis with | .none => 1 | .zero => m | .one => n)) ∧
    (¬ ValidBlock bs → computeMean big k x y axis bs = .error .valueError) := by
  refine ⟨fun hbs h => ?_, fun hbs hn hm => ?_, fun hbs => ?_⟩
  · obtain ⟨a, b, hab⟩ := treeLeavesRepeat_of_valid hbs
    cases axis <;> simp [computeMean, hab, columnMean_error big k h, columnMean_error big k h.symm]
  · obtain ⟨a, b, hab⟩ := treeLeavesRepeat_of_valid hbs
    cases axis <;> simp [computeMean, hab, columnMean_eq big k hn hm, columnMean_eq big k hm hn]
  · have := treeLeavesRepeat_of_invalid hbs
    unfold computeMean
    split
    · rename_i h; simp [h] at this
    · rfl

/-- The Gramian row-mean of a symmetric kernel, for every block size. -/
theorem C05_gramian_row_mean (big : K) (k : X → X → K) (hk : ∀ a b, k a b = k b a) {n : ℕ} (hn : 0 < n)
    (x : Data n X K) (hx : ∑ j, x.weights j ≠ 0) (bs : PyTree (Option ℤ)) (hbs : ValidBlock bs) :
    gramianRowMean big k x bs
      = .ok (List.ofFn fun j => avg x.weights (fun i => k (x.data i) (x.data j))) :=
  C05_mean_axis0 big k hk hn hn x x hx bs hbs

example := C05_gramian_row_mean 1000 (fun a b : ℚ => a * b + 1) (fun a b => by ring) (by norm_num) (⟨![5, 7, 9], ![1, 0, 3]⟩ : Data 3 ℚ ℚ) (by decide +kernel) (.leaf (some 2)) (.inl rfl)

/-! ### C06 -/

theorem avg_padded {n p : ℕ} (w f : Fin n → K) (g : Fin p → K) :
    avg (padWeights w p) (Fin.append f g) = avg w f := by
  simp [avg, padWeights, Fin.sum_univ_add]

theorem sum_padWeights {n p : ℕ} (w : Fin n → K) : ∑ i, padWeights w p i = ∑ i, w i := by
  simp [padWeights, Fin.sum_univ_add]

theorem append_comp {n p : ℕ} {α β : Type*} (f : α → β) (a : Fin n → α) (b : Fin p → α) :
    (fun i => f (Fin.append a b i)) = Fin.append (fun i => f (a i)) (fun i => f (b i)) := by
  funext i
  refine Fin.addCases (fun j => by simp) (fun j => by simp) i

theorem avg_padded' {n p : ℕ} {α : Type*} (w : Fin n → K) (f : α → K) (a : Fin n → α) (b : Fin p → α) :
    avg (padWeights w p) (fun i => f (Fin.append a b i)) = avg w (fun i => f (a i)) := by
  rw [append_comp, avg_padded]

/-- Zero-weight rows appended to either operand (with any contents `z`, `z'`) do not change the overall mean. -/
theorem C06_padding_none (big : K) (k : X → X → K) {n m p q : ℕ} (hn : 0 < n) (hm : 0 < m) (x : Data n X K)
    (y : Data m X K) (hx : ∑ j, x.weights j ≠ 0) (hy : ∑ j, y.weights j ≠ 0) (z : Fin p → X) (z' : Fin q → X)
    (bs : PyTree (Option ℤ)) (hbs : ValidBlock bs) :
    computeMean big k ⟨Fin.append x.data z, padWeights x.weights p⟩
      ⟨Fin.append y.data z', padWeights y.weights q⟩ .none bs = computeMean big k x y .none bs := by
  rw [C05_mean_none big k hn hm x y hx hy bs hbs,
    C05_mean_none big k (by omega) (by omega) _ _ (by simpa [sum_padWeights]) (by simpa [sum_padWeights]) bs hbs]
  have e : ∀ a, avg (padWeights y.weights q) (fun j => k a (Fin.append y.data z' j))
      = avg y.weights fun j => k a (y.data j) := fun a => avg_padded' _ (fun b => k a b) _ _
  simp only [e]
  rw [avg_padded' _ (fun a => avg y.weights fun j => k a (y.data j))]

example := C06_padding_none 1000 (fun a b : ℚ => a * b + 1) (by norm_num) (by norm_num) (⟨![5, 7, 9], ![1, 0, 3]⟩ : Data 3 ℚ ℚ) (⟨![2, 4], ![1, -3]⟩ : Data 2 ℚ ℚ) (by decide +kernel) (by decide +kernel) ![100, 200] ![300] (.leaf (some 2)) (.inl rfl)

/-- Zero-weight rows appended to `y` do not change the per-row means; rows appended to `x` leave the means of the
original rows unchanged. -/
theorem C06_padding_axis1 (big : K) (k : X → X → K) {n m p q : ℕ} (hn : 0 < n) (hm : 0 < m) (x : Data n X K)
    (y : Data m X K) (hy : ∑ j, y.weights j ≠ 0) (z : Fin p → X) (z' : Fin q → X)
    (bs : PyTree (Option ℤ)) (hbs : ValidBlock bs) :
    ∃ l l', computeMean big k x y .one bs = .ok l ∧
      computeMean big k ⟨Fin.append x.data z, padWeights x.weights p⟩
        ⟨Fin.append y.data z', padWeights y.weights q⟩ .one bs = .ok l' ∧ l'.take n = l := by
  refine ⟨_, _, C05_mean_axis1 big k hn hm x y hy bs hbs,
    C05_mean_axis1 big k (by omega) (by omega) _ _ (by simpa [sum_padWeights]) bs hbs, ?_⟩
  have e : ∀ a, avg (padWeights y.weights q) (fun j => k a (Fin.append y.data z' j))
      = avg y.weights fun j => k a (y.data j) := fun a => avg_padded' _ (fun b => k a b) _ _
  simp only [e]
  rw [List.ofFn_add]
  simp

example := C06_padding_axis1 1000 (fun a b : ℚ => a * b + 1) (by norm_num) (by norm_num) (⟨![5, 7, 9], ![1, 0, 3]⟩ : Data 3 ℚ ℚ) (⟨![2, 4], ![1, -3]⟩ : Data 2 ℚ ℚ) (by decide +kernel) ![100, 200] ![300] (.leaf (some 2)) (.inl rfl)

/-- The Gramian row-mean of the original rows is unchanged by zero-weight padding. -/
theorem C06_padding_gramian (big : K) (k : X → X → K) (hk : ∀ a b, k a b = k b a) {n p : ℕ} (hn : 0 < n)
    (x : Data n X K) (hx : ∑ j, x.weights j ≠ 0) (z : Fin p → X) (bs : PyTree (Option ℤ)) (hbs : ValidBlock bs) :
    ∃ l l', gramianRowMean big k x bs = .ok l ∧
      gramianRowMean big k ⟨Fin.append x.data z, padWeights x.weights p⟩ bs = .ok l' ∧ l'.take n = l := by
  refine ⟨_, _, C05_gramian_row_mean big k hk hn x hx bs hbs,
    C05_gramian_row_mean big k hk (by omega) _ (by simpa [sum_padWeights]) bs hbs, ?_⟩
  have e : ∀ a, avg (padWeights x.weights p) (fun j => k (Fin.append x.data z j) a)
      = avg x.weights fun j => k (x.data j) a := fun a => avg_padded' _ (fun b => k b a) _ _
  simp only [e]
  rw [List.ofFn_add]
  simp

example := C06_padding_gramian 1000 (fun a b : ℚ => a * b + 1) (fun a b => by ring) (by norm_num) (⟨![5, 7, 9], ![1, 0, 3]⟩ : Data 3 ℚ ℚ) (by decide +kernel) ![100, 200] (.leaf (some 2)) (.inl rfl)

/-- Rescaling the weights of either operand by non-zero factors changes nothing. -/
theorem C06_weight_scale (big : K) (k : X → X → K) {n m : ℕ} (hn : 0 < n) (hm : 0 < m) (x : Data n X K)
    (y : Data m X K) (hx : ∑ j, x.weights j ≠ 0) (hy : ∑ j, y.weights j ≠ 0) (c c' : K) (hc : c ≠ 0)
    (hc' : c' ≠ 0) (axis : Axis) (bs : PyTree (Option ℤ)) (hbs : ValidBlock bs) :
    computeMean big k ⟨x.data, fun i => c * x.weights i⟩ ⟨y.data, fun i => c' * y.weights i⟩ axis bs
      = computeMean big k x y axis bs := by
  obtain ⟨a, b, hab⟩ := treeLeavesRepeat_of_valid hbs
  have e1 : ∀ i, normWeightsPZ big (fun i => c * x.weights i) i = normWeightsPZ big x.weights i := by
    intro i
    rw [normWeightsPZ_of_sum_ne big hx, normWeightsPZ_of_sum_ne big]
    · rw [← Finset.mul_sum, mul_div_mul_left _ _ hc]
    · rw [← Finset.mul_sum]; exact mul_ne_zero hc hx
  have e2 : ∀ i, normWeightsPZ big (fun i => c' * y.weights i) i = normWeightsPZ big y.weights i := by
    intro i
    rw [normWeightsPZ_of_sum_ne big hy, normWeightsPZ_of_sum_ne big]
    · rw [← Finset.mul_sum, mul_div_mul_left _ _ hc']
    · rw [← Finset.mul_sum]; exact mul_ne_zero hc' hy
  cases axis <;> simp [computeMean, hab, columnMean_eq big k hn hm, columnMean_eq big k hm hn, e1, e2]

/-! ### Concrete cases -/

/-- The model runs: a non-uniformly weighted 3-point and 2-point dataset with a non-divisor block size. -/
example : computeMean (K := ℚ) 1000 (fun a b : ℚ => a * b) (n := 3) (m := 2)
    ⟨![1, 2, 3], ![1, 2, 1]⟩ ⟨![5, 7], ![3, 1]⟩ .one (.node [.leaf (some 2), .leaf none])
    = .ok [11/2, 11, 33/2] := by decide +kernel

example : ∑ j, (![3, 1] : Fin 2 → ℚ) j ≠ 0 := by decide +kernel

example : ValidBlock (.node [.leaf (some 2), .leaf none]) := Or.inr rfl

end Coreax
