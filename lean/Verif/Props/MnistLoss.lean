import Verif.Model.MnistLoss
import Verif.Lemmas.Recombination
import Mathlib.Analysis.SpecialFunctions.Log.Deriv
import Mathlib.Analysis.Complex.ExponentialBounds

/-!
# C104: loss and accuracy of the MNIST benchmark
-/

namespace Coreax

open Finset

variable {c : ℕ} [NeZero c] {n : ℕ}

namespace Spec

/-- The probability that logits give to a class. -/
noncomputable def prob (x : Fin c → ℝ) (j : Fin c) : ℝ := Real.exp (x j) / ∑ k, Real.exp (x k)

/-- The loss of a row whose label is a class, or none. -/
noncomputable def surprise (x : Fin c → ℝ) : Option (Fin c) → ℝ
  | some j => -Real.log (prob x j)
  | none => 0

/-- `labels` stands for the classes `cls`; `none` for a label that is no class. -/
def Labels (labels : Fin n → ℤ) (cls : Fin n → Option (Fin c)) : Prop :=
  ∀ i, match cls i with
    | some j => labels i = (j : ℤ)
    | none => ∀ j : Fin c, labels i ≠ (j : ℤ)

/-- The prediction: the first class with the largest logit. -/
def Predicts (x : Fin c → ℝ) (j : Fin c) : Prop := (∀ k, x k ≤ x j) ∧ ∀ k, k < j → x k < x j

end Spec

open Spec

namespace MnistLoss

theorem sum_exp_pos (x : Fin c → ℝ) : 0 < ∑ k, Real.exp (x k) :=
  sum_pos (fun _ _ => Real.exp_pos _) ⟨0, mem_univ _⟩

theorem logSoftmax_eq (x : Fin c → ℝ) (j : Fin c) : logSoftmax x j = Real.log (prob x j) := by
  have hs := sum_exp_pos x
  have h : ∑ k, Real.exp (x k - x (argmaxFirst x)) = (∑ k, Real.exp (x k)) / Real.exp (x (argmaxFirst x)) := by
    rw [sum_div]
    exact sum_congr rfl fun k _ => Real.exp_sub _ _
  simp only [logSoftmax, h]
  rw [Real.log_div hs.ne' (Real.exp_pos _).ne', Real.log_exp, prob, Real.log_div (Real.exp_pos _).ne' hs.ne', Real.log_exp]
  ring

theorem row (x : Fin c → ℝ) {label : ℤ} {cl : Option (Fin c)} (h : match cl with
    | some j => label = (j : ℤ)
    | none => ∀ j : Fin c, label ≠ (j : ℤ)) : softmaxCrossEntropy x (oneHot c label) = surprise x cl := by
  cases cl with
  | none =>
    simp only at h
    simp [softmaxCrossEntropy, oneHot, h, surprise]
  | some j =>
    simp only at h
    subst h
    simp only [softmaxCrossEntropy, oneHot, logSoftmax_eq, surprise]
    rw [sum_eq_single j]
    · simp
    · intro k _ hk
      simp [Fin.val_inj, Ne.symm hk]
    · simp

theorem predicts (x : Fin c → ℝ) (j : Fin c) : argmaxFirst x = j ↔ Predicts x j := by
  have h := argmaxFirst_spec x
  constructor
  · rintro rfl
    exact ⟨fun k => (h k).1, fun k hk => (h k).2 hk⟩
  · rintro ⟨h1, h2⟩
    rcases lt_trichotomy (argmaxFirst x) j with hl | hl | hl
    · exact absurd (h2 _ hl) (not_lt.2 (h j).1)
    · exact hl
    · exact absurd ((h j).2 hl) (not_lt.2 (h1 _))

theorem prob_pos (x : Fin c → ℝ) (j : Fin c) : 0 < prob x j := div_pos (Real.exp_pos _) (sum_exp_pos x)

theorem prob_sum (x : Fin c → ℝ) : ∑ j, prob x j = 1 := by
  simp only [prob, ← sum_div]
  exact div_self (sum_exp_pos x).ne'

theorem prob_le_one (x : Fin c → ℝ) (j : Fin c) : prob x j ≤ 1 := by
  rw [← prob_sum x]
  exact single_le_sum (fun k _ => (prob_pos x k).le) (mem_univ j)

theorem prob_lt_one (hc : 2 ≤ c) (x : Fin c → ℝ) (j : Fin c) : prob x j < 1 := by
  obtain ⟨k, hk⟩ : ∃ k : Fin c, k ≠ j := by
    by_cases h : j = ⟨0, by omega⟩
    · exact ⟨⟨1, by omega⟩, by rw [h]; simp⟩
    · exact ⟨_, Ne.symm h⟩
  have h : prob x j + prob x k ≤ 1 := by
    rw [← prob_sum x, ← sum_pair (Ne.symm hk)]
    exact sum_le_sum_of_subset_of_nonneg (subset_univ _) fun l _ _ => (prob_pos x l).le
  linarith [prob_pos x k]

theorem surprise_nonneg (x : Fin c → ℝ) (cl : Option (Fin c)) : 0 ≤ surprise x cl := by
  cases cl with
  | none => exact le_rfl
  | some j => exact neg_nonneg.2 (Real.log_nonpos (prob_pos x j).le (prob_le_one x j))

theorem surprise_pos (hc : 2 ≤ c) (x : Fin c → ℝ) (j : Fin c) : 0 < surprise x (some j) :=
  neg_pos.2 (Real.log_neg (prob_pos x j) (prob_lt_one hc x j))

/-- A class that is not predicted has probability at most one half. -/
theorem half (x : Fin c → ℝ) {j : Fin c} (h : ¬ Predicts x j) : prob x j ≤ 1 / 2 := by
  have hne : argmaxFirst x ≠ j := fun he => h ((predicts x j).1 he)
  have h1 : prob x j ≤ prob x (argmaxFirst x) :=
    div_le_div_of_nonneg_right (Real.exp_le_exp.2 (argmaxFirst_spec x j).1) (sum_exp_pos x).le
  have h2 : prob x j + prob x (argmaxFirst x) ≤ 1 := by
    rw [← prob_sum x, ← sum_pair (Ne.symm hne)]
    exact sum_le_sum_of_subset_of_nonneg (subset_univ _) fun l _ _ => (prob_pos x l).le
  linarith

theorem log_two_le (x : Fin c → ℝ) {j : Fin c} (h : ¬ Predicts x j) : Real.log 2 ≤ surprise x (some j) := by
  have := Real.log_le_log (prob_pos x j) (half x h)
  rw [one_div, Real.log_inv] at this
  exact le_neg.1 this

theorem prob_shift (x : Fin c → ℝ) (a : ℝ) (j : Fin c) : prob (fun k => x k + a) j = prob x j := by
  simp only [prob, Real.exp_add, ← sum_mul]
  exact mul_div_mul_right _ _ (Real.exp_pos a).ne'

theorem loss_eq (logits : Fin n → Fin c → ℝ) {labels : Fin n → ℤ} {cls : Fin n → Option (Fin c)} (h : Labels labels cls) :
    crossEntropyLoss logits labels = (∑ i, surprise (logits i) (cls i)) / n := by
  simp only [crossEntropyLoss]
  congr 1
  exact sum_congr rfl fun i _ => row _ (h i)

open Classical in
theorem acc_eq (logits : Fin n → Fin c → ℝ) {labels : Fin n → ℤ} {cls : Fin n → Option (Fin c)} (h : Labels labels cls) :
    labelAccuracy logits labels = ((univ.filter fun i => ∃ j, cls i = some j ∧ Predicts (logits i) j).card : ℝ) / n := by
  simp only [labelAccuracy]
  congr 1
  rw [card_filter, Nat.cast_sum]
  refine sum_congr rfl fun i _ => ?_
  have hi := h i
  have : (((argmaxFirst (logits i) : ℕ) : ℤ) = labels i) ↔ ∃ j, cls i = some j ∧ Predicts (logits i) j := by
    cases hcl : cls i with
    | none =>
      rw [hcl] at hi
      simp only at hi
      simpa using fun h => hi _ h.symm
    | some j =>
      rw [hcl] at hi
      simp only at hi
      simp only [hi, Option.some.injEq, exists_eq_left', ← predicts]
      norm_cast
      exact Fin.val_inj
  simp only [this]
  split_ifs <;> simp

end MnistLoss

open MnistLoss

open Classical in
/-- C104: the loss is the average of minus the logarithm of the probability of the label, the accuracy the share of rows whose label is
predicted; labels that are no class have no loss and are never predicted. -/
theorem C104_metrics (logits : Fin n → Fin c → ℝ) {labels : Fin n → ℤ} {cls : Fin n → Option (Fin c)} (h : Labels labels cls) :
    computeMetrics logits labels = ((∑ i, surprise (logits i) (cls i)) / n,
      ((univ.filter fun i => ∃ j, cls i = some j ∧ Predicts (logits i) j).card : ℝ) / n) := by
  rw [computeMetrics, loss_eq logits h, acc_eq logits h]

example := C104_metrics (c := 3) (n := 2) ![![1, 2, 3], ![4, 5, 0]] (labels := ![2, 7]) (cls := ![some 2, none]) (by
  intro i; fin_cases i
  · simp
  · simp only [Fin.mk_one, Matrix.cons_val_one, Matrix.cons_val_zero]; intro j; have := j.2; omega)

/-- C104: the loss is never negative, and zero exactly if no label is a class (so a loss of zero means broken labels). -/
theorem C104_zero (hc : 2 ≤ c) (hn : 0 < n) (logits : Fin n → Fin c → ℝ) (labels : Fin n → ℤ) :
    0 ≤ crossEntropyLoss logits labels ∧ (crossEntropyLoss logits labels = 0 ↔ ∀ i (j : Fin c), labels i ≠ (j : ℤ)) := by
  classical
  let cls : Fin n → Option (Fin c) := fun i => if h : ∃ j : Fin c, labels i = (j : ℤ) then some h.choose else none
  have hl : Labels labels cls := fun i => by
    by_cases h : ∃ j : Fin c, labels i = (j : ℤ)
    · simp only [cls, dif_pos h]
      exact h.choose_spec
    · simp only [cls, dif_neg h]
      exact fun j hj => h ⟨j, hj⟩
  have hn' : (0 : ℝ) < n := by exact_mod_cast hn
  rw [loss_eq logits hl]
  refine ⟨div_nonneg (sum_nonneg fun i _ => surprise_nonneg _ _) hn'.le, ?_⟩
  rw [div_eq_zero_iff, or_iff_left hn'.ne', sum_eq_zero_iff_of_nonneg fun i _ => surprise_nonneg _ _]
  constructor
  · intro h i j hj
    have hi := h i (mem_univ i)
    have hx : ∃ j : Fin c, labels i = (j : ℤ) := ⟨j, hj⟩
    simp only [cls, dif_pos hx] at hi
    exact (surprise_pos hc (logits i) hx.choose).ne' hi
  · intro h i _
    have hx : ¬ ∃ j : Fin c, labels i = (j : ℤ) := fun ⟨j, hj⟩ => h i j hj
    simp only [cls, dif_neg hx, surprise]

example := C104_zero (c := 10) (n := 2) (by norm_num) (by norm_num) (fun i j => (i : ℝ) + j) ![3, 12]

/-- C104: adding a number to all logits of a row changes neither loss nor accuracy. -/
theorem C104_shift (logits : Fin n → Fin c → ℝ) (a : Fin n → ℝ) {labels : Fin n → ℤ} {cls : Fin n → Option (Fin c)} (h : Labels labels cls) :
    computeMetrics (fun i j => logits i j + a i) labels = computeMetrics logits labels := by
  have h1 : ∀ i, surprise (fun j => logits i j + a i) (cls i) = surprise (logits i) (cls i) := fun i => by
    cases cls i <;> simp only [surprise, prob_shift]
  have h2 : ∀ i j, Predicts (fun j => logits i j + a i) j ↔ Predicts (logits i) j := fun i j => by
    simp [Predicts]
  rw [C104_metrics _ h, C104_metrics _ h]
  simp only [h1]
  refine Prod.ext rfl (congrArg (fun s : Finset (Fin n) => (s.card : ℝ) / n) ?_)
  ext i
  simp only [mem_filter, h2]

example := C104_shift (c := 3) (n := 1) ![![1, 2, 3]] ![5] (labels := ![2]) (cls := ![some 2]) (by intro i; fin_cases i; simp)

/-- C104: loss bounds accuracy.  Every wrong row costs at least `log 2`, so the share of wrong rows is at most the loss over `log 2`. -/
theorem C104_accuracy_bound (hn : 0 < n) (logits : Fin n → Fin c → ℝ) (cls : Fin n → Fin c) :
    1 - labelAccuracy logits (fun i => (cls i : ℤ)) ≤ crossEntropyLoss logits (fun i => (cls i : ℤ)) / Real.log 2 := by
  classical
  have hl : Labels (fun i => (cls i : ℤ)) (fun i => some (cls i)) := fun i => rfl
  have hn' : (0 : ℝ) < n := by exact_mod_cast hn
  have h2 : 0 < Real.log 2 := Real.log_pos one_lt_two
  rw [loss_eq logits hl, acc_eq logits hl, le_div_iff₀ h2, ← mul_le_mul_iff_left₀ hn', div_mul_cancel₀ _ hn'.ne']
  have hcard : ((univ.filter fun i => ∃ j, some (cls i) = some j ∧ Predicts (logits i) j).card : ℝ) +
      ((univ.filter fun i => ¬ ∃ j, some (cls i) = some j ∧ Predicts (logits i) j).card : ℝ) = n := by
    rw [← Nat.cast_add, card_filter_add_card_filter_not]
    simp
  have hsum : ((univ.filter fun i => ¬ ∃ j, some (cls i) = some j ∧ Predicts (logits i) j).card : ℝ) * Real.log 2 ≤ ∑ i, surprise (logits i) (some (cls i)) := by
    rw [← nsmul_eq_mul]
    refine (card_nsmul_le_sum _ _ _ fun i hi => ?_).trans (sum_le_sum_of_subset_of_nonneg (filter_subset _ _) fun i _ _ => surprise_nonneg _ _)
    refine log_two_le _ fun hp => ?_
    simp only [mem_filter, not_exists] at hi
    exact hi.2 _ ⟨rfl, hp⟩
  calc _ = ((n : ℝ) - ((univ.filter fun i => ∃ j, some (cls i) = some j ∧ Predicts (logits i) j).card : ℝ)) * Real.log 2 := by
        field_simp
    _ = ((univ.filter fun i => ¬ ∃ j, some (cls i) = some j ∧ Predicts (logits i) j).card : ℝ) * Real.log 2 := by
        congr 1; linarith
    _ ≤ _ := hsum

example := C104_accuracy_bound (c := 3) (n := 2) (by norm_num) ![![1, 2, 3], ![4, 5, 0]] ![2, 0]

/-- C104: in particular a loss below `log 2 / n` means that every row is right. -/
theorem C104_all_right (hn : 0 < n) (logits : Fin n → Fin c → ℝ) (cls : Fin n → Fin c)
    (h : crossEntropyLoss logits (fun i => (cls i : ℤ)) < Real.log 2 / n) : ∀ i, Predicts (logits i) (cls i) := by
  have hl : Labels (fun i => (cls i : ℤ)) (fun i => some (cls i)) := fun i => rfl
  have hn' : (0 : ℝ) < n := by exact_mod_cast hn
  intro i
  by_contra hp
  rw [loss_eq logits hl, div_lt_div_iff_of_pos_right hn'] at h
  exact absurd ((log_two_le _ hp).trans (single_le_sum (f := fun i => surprise (logits i) (some (cls i))) (fun i _ => surprise_nonneg _ _) (mem_univ i))) (not_le.2 h)

/-- C104: margins.  If in every row the logit of the label exceeds the others by `g > 0`, every row is right and the loss is at most
`(c - 1) exp (-g)`. -/
theorem C104_margin (hn : 0 < n) (logits : Fin n → Fin c → ℝ) (cls : Fin n → Fin c) {g : ℝ} (hg : 0 < g)
    (h : ∀ i j, j ≠ cls i → logits i j + g ≤ logits i (cls i)) :
    labelAccuracy logits (fun i => (cls i : ℤ)) = 1 ∧ crossEntropyLoss logits (fun i => (cls i : ℤ)) ≤ (c - 1) * Real.exp (-g) := by
  classical
  have hl : Labels (fun i => (cls i : ℤ)) (fun i => some (cls i)) := fun i => rfl
  have hn' : (0 : ℝ) < n := by exact_mod_cast hn
  constructor
  · rw [acc_eq logits hl, filter_true_of_mem, card_univ, Fintype.card_fin, div_self hn'.ne']
    intro i _
    refine ⟨_, rfl, fun k => ?_, fun k hk => ?_⟩
    · by_cases hk : k = cls i
      · rw [hk]
      · linarith [h i k hk]
    · linarith [h i k hk.ne]
  · rw [loss_eq logits hl, div_le_iff₀ hn']
    have : ∀ i, surprise (logits i) (some (cls i)) ≤ (c - 1) * Real.exp (-g) := fun i => by
      have hs := sum_exp_pos (logits i)
      have he := Real.exp_pos (logits i (cls i))
      simp only [surprise]
      rw [← Real.log_inv, prob, inv_div]
      have h1 : (∑ k, Real.exp (logits i k)) / Real.exp (logits i (cls i)) ≤ 1 + (c - 1) * Real.exp (-g) := by
        rw [div_le_iff₀ he, ← add_sum_erase _ _ (mem_univ (cls i))]
        have h2 : ∑ k ∈ univ.erase (cls i), Real.exp (logits i k) ≤ (univ.erase (cls i)).card • (Real.exp (-g) * Real.exp (logits i (cls i))) := by
          refine sum_le_card_nsmul _ _ _ fun k hk => ?_
          rw [← Real.exp_add]
          exact Real.exp_le_exp.2 (by linarith [h i k (ne_of_mem_erase hk)])
        rw [card_erase_of_mem (mem_univ _), card_univ, Fintype.card_fin, nsmul_eq_mul, Nat.cast_sub (NeZero.one_le), Nat.cast_one] at h2
        linarith
      have h3 := Real.log_le_sub_one_of_pos (div_pos hs he)
      linarith
    calc _ ≤ ∑ _i : Fin n, ((c : ℝ) - 1) * Real.exp (-g) := sum_le_sum fun i _ => this i
      _ = _ := by simp; ring

example := C104_margin (c := 3) (n := 2) (by norm_num) ![![1, 2, 8], ![9, 5, 0]] ![2, 0] (g := 4) (by norm_num) (by
  intro i j h; fin_cases i <;> fin_cases j <;> first | exact absurd rfl h | (norm_num; done) | (norm_num; change _ ≤ (8 : ℝ); norm_num))

/-- The margins above do reach a loss that certifies every row (see `C104_all_right`). -/
example : ∀ i, Predicts ((![![1, 2, 8], ![9, 5, 0]] : Fin 2 → Fin 3 → ℝ) i) ((![2, 0] : Fin 2 → Fin 3) i) := by
  refine C104_all_right (by norm_num) _ _ (lt_of_le_of_lt (C104_margin (by norm_num) _ _ (g := 4) (by norm_num) ?_).2 ?_)
  · intro i j h; fin_cases i <;> fin_cases j <;> first | exact absurd rfl h | (norm_num; done) | (norm_num; change _ ≤ (8 : ℝ); norm_num)
  · have h1 : Real.exp (-4) ≤ 1 / 10 := by
      rw [Real.exp_neg, one_div]
      refine inv_anti₀ (by norm_num) ?_
      have := Real.add_one_le_exp (2 : ℝ)
      have h4 : Real.exp 4 = Real.exp 2 * Real.exp 2 := by rw [← Real.exp_add]; norm_num
      have h2 : Real.exp 2 = Real.exp 1 * Real.exp 1 := by rw [← Real.exp_add]; norm_num
      have h3 := Real.exp_one_gt_d9
      nlinarith
    have h2 := Real.log_two_gt_d9
    norm_num
    linarith

/-- C104: logits that do not tell the classes apart give the loss `log c`, and the accuracy is the share of the label `0`. -/
theorem C104_uniform (hn : 0 < n) (v : Fin n → ℝ) (cls : Fin n → Fin c) :
    crossEntropyLoss (c := c) (fun i _ => v i) (fun i => (cls i : ℤ)) = Real.log c ∧
      labelAccuracy (c := c) (fun i _ => v i) (fun i => (cls i : ℤ)) = ((univ.filter fun i => cls i = 0).card : ℝ) / n := by
  classical
  have hl : Labels (fun i => (cls i : ℤ)) (fun i => some (cls i)) := fun i => rfl
  have hn' : (0 : ℝ) < n := by exact_mod_cast hn
  constructor
  · rw [loss_eq _ hl]
    have : ∀ i, surprise (fun _ : Fin c => v i) (some (cls i)) = Real.log c := fun i => by
      simp only [surprise, prob, sum_const, card_univ, Fintype.card_fin, nsmul_eq_mul]
      rw [← Real.log_inv, inv_div, mul_div_cancel_right₀ _ (Real.exp_pos _).ne']
    simp only [this, sum_const, card_univ, Fintype.card_fin, nsmul_eq_mul]
    exact mul_div_cancel_left₀ _ hn'.ne'
  · rw [acc_eq _ hl]
    have hz : ((0 : Fin c) : ℕ) = 0 := by simp
    congr 3
    ext i
    simp only [mem_filter, mem_univ, Option.some.injEq, exists_eq_left', Predicts, le_refl, implies_true, true_and, lt_irrefl]
    constructor
    · intro h
      by_contra h0
      exact h 0 (Fin.lt_def.2 (by rw [hz]; exact Nat.pos_of_ne_zero fun e => h0 (Fin.ext (by rw [hz, e]))))
    · intro h k hk
      rw [h, Fin.lt_def, hz] at hk
      exact absurd hk (Nat.not_lt_zero _)

example := C104_uniform (c := 10) (n := 3) (by norm_num) (fun _ => 0) ![0, 3, 0]

end Coreax
