import Verif.Model.Examples
import Verif.Lemmas.Basic
import Mathlib.Data.Fintype.CardEmbedding
import Mathlib.Tactic.FinCases

/-!
# C78: the example of a coreset in a model pipeline
-/

namespace Coreax

open Finset

/-- The root mean square error of predictions. -/
noncomputable def Spec.rmse {t : ℕ} (y p : Fin t → ℝ) : ℝ := Real.sqrt ((∑ i, (y i - p i) ^ 2) / t)

open Spec

/-- The number reported is the root mean square error on the test data times `sqrt(t / n)`, where `n` counts all the data: it is
too small by that factor (`sqrt(1/10)` for a tenth of test data), but comparisons between models are not affected. -/
theorem C78_rmse {t n : ℕ} (ht : 0 < t) (htn : t < n) (y p p' : Fin t → ℝ) :
    reportedRmse n y p = Real.sqrt (t / n) * rmse y p ∧
    (p ≠ y → reportedRmse n y p < rmse y p) ∧
    (n = 10 * t → 10 * reportedRmse n y p ^ 2 = rmse y p ^ 2) ∧
    (reportedRmse n y p ≤ reportedRmse n y p' ↔ rmse y p ≤ rmse y p') := by
  have ht' : (0 : ℝ) < t := by exact_mod_cast ht
  have hn' : (0 : ℝ) < n := by exact_mod_cast ht.trans htn
  have key : ∀ p, reportedRmse n y p = Real.sqrt (t / n) * rmse y p := fun p => by
    unfold reportedRmse rmse
    rw [← Real.sqrt_mul (by positivity)]
    congr 1
    field_simp
  have hpos : 0 < Real.sqrt ((t : ℝ) / n) := Real.sqrt_pos.2 (by positivity)
  refine ⟨key p, fun hp => ?_, fun h => ?_, ?_⟩
  · obtain ⟨i, hi⟩ := Function.ne_iff.1 hp
    have hs : 0 < ∑ i, (y i - p i) ^ 2 :=
      Finset.sum_pos' (fun i _ => sq_nonneg _) ⟨i, mem_univ _, by
        have : y i - p i ≠ 0 := sub_ne_zero.2 (Ne.symm hi)
        positivity⟩
    refine Real.sqrt_lt_sqrt (by positivity) ?_
    exact div_lt_div_of_pos_left hs ht' (by exact_mod_cast htn)
  · have hsum : 0 ≤ ∑ i, (y i - p i) ^ 2 := Finset.sum_nonneg fun i _ => sq_nonneg _
    unfold reportedRmse rmse
    rw [Real.sq_sqrt (by positivity), Real.sq_sqrt (by positivity), h]
    push_cast
    field_simp
  · rw [key p, key p']
    exact mul_le_mul_iff_right₀ hpos

example := C78_rmse (t := 2) (n := 20) (by norm_num) (by norm_num) ![1, 2] ![1, 0] ![0, 0]

/-- The rows used for the bandwidth: indices beyond the training data are all read as its last row, so that rows are repeated as
soon as two of the indices (which are distinct) are not below `train - 1`. -/
theorem C78_rows {α : Type*} {train n m : ℕ} [NeZero train] (x : Fin train → α) (e : Fin m → Fin n)
    (he : Function.Injective e) :
    (∀ t, bandwidthRows x (fun t => (e t : ℤ)) t = x ⟨min (e t) (train - 1), by have := NeZero.pos train; omega⟩) ∧
    (Function.Injective (bandwidthRows id fun t => (e t : ℤ) : Fin m → Fin train) ↔
      #{t | train - 1 ≤ (e t : ℕ)} ≤ 1) := by
  have hpos := NeZero.pos train
  have key : ∀ t, gatherIdx train ((e t : ℕ) : ℤ) = ⟨min (e t) (train - 1), by omega⟩ := fun t => by
    apply Fin.ext
    have h : ¬ (((e t : ℕ) : ℤ) < 0) := by omega
    simp [gatherIdx, h]
  refine ⟨fun t => congrArg x (key t), ?_⟩
  constructor
  · intro hinj
    rw [card_le_one]
    intro s hs t ht
    simp only [mem_filter, mem_univ, true_and] at hs ht
    apply hinj
    simp only [bandwidthRows, id, key]
    apply Fin.ext
    simp only
    omega
  · intro hcard s t hst
    simp only [bandwidthRows, id, key, Fin.mk.injEq] at hst
    by_contra hne
    have hv : (e s : ℕ) ≠ e t := fun h => hne (he (Fin.ext h))
    have := card_le_one.1 hcard s (by simp; omega) t (by simp; omega)
    exact hne this

/-- Three draws out of five rows with four rows of training data: the draws 3 and 4 are the same row. -/
example := C78_rows (train := 4) (n := 5) (m := 3) ![10, 11, 12, (13 : ℕ)] ![4, 0, 3] (by decide)

/-- The draws beyond the training data, counted over all ways to draw `m` of the `n` indices without repetition: on average
`m * (n - train) / n` of them (a tenth for a tenth of test data). -/
theorem C78_mean_outside {train n m : ℕ} (htn : train ≤ n) :
    n * ∑ e : Fin m ↪ Fin n, #{t | train ≤ (e t : ℕ)} = m * (n - train) * Fintype.card (Fin m ↪ Fin n) := by
  have hsym : ∀ (t : Fin m) (v v' : Fin n), #{e : Fin m ↪ Fin n | e t = v} = #{e : Fin m ↪ Fin n | e t = v'} := by
    intro t v v'
    refine Finset.card_bij (fun e _ => e.trans (Equiv.swap v v').toEmbedding) ?_ ?_ ?_
    · intro e he
      simp only [mem_filter, mem_univ, true_and] at he ⊢
      simp [he]
    · intro e _ e' _ h
      ext s
      have := congrArg (fun f => f s) h
      simp only [Function.Embedding.trans_apply, Equiv.coe_toEmbedding] at this
      exact congrArg _ ((Equiv.swap v v').injective this)
    · intro e he
      refine ⟨e.trans (Equiv.swap v v').toEmbedding, ?_, ?_⟩
      · simp only [mem_filter, mem_univ, true_and] at he ⊢
        simp [he]
      · ext s
        simp
  have hcount : ∀ (t : Fin m) (v : Fin n), n * #{e : Fin m ↪ Fin n | e t = v} = Fintype.card (Fin m ↪ Fin n) := by
    intro t v
    have h1 : Fintype.card (Fin m ↪ Fin n) = ∑ v' : Fin n, #{e : Fin m ↪ Fin n | e t = v'} := by
      rw [← card_univ]
      exact card_eq_sum_card_fiberwise (f := fun e : Fin m ↪ Fin n => e t) (t := univ) (fun _ _ => mem_coe.2 (mem_univ _))
    rw [h1, Finset.sum_congr rfl fun v' _ => hsym t v' v]
    simp
  have hswap : ∑ e : Fin m ↪ Fin n, #{t | train ≤ (e t : ℕ)} =
      ∑ _t : Fin m, ∑ v ∈ univ.filter (fun v : Fin n => train ≤ (v : ℕ)), #{e : Fin m ↪ Fin n | e _t = v} := by
    simp only [card_filter]
    rw [sum_comm]
    refine sum_congr rfl fun t _ => ?_
    rw [sum_comm]
    refine sum_congr rfl fun e _ => ?_
    simp [sum_ite_eq, mem_filter]
  have hcard : #{v : Fin n | train ≤ (v : ℕ)} = n - train := by
    have h1 : #{v : Fin n | (v : ℕ) < train} = train := by
      rw [Fin.card_filter_val_lt]
      exact min_eq_right htn
    have h2 := card_filter_add_card_filter_not (s := (univ : Finset (Fin n))) (fun v : Fin n => (v : ℕ) < train)
    simp only [not_lt] at h2
    rw [h1, card_univ, Fintype.card_fin] at h2
    omega
  rw [hswap, mul_sum]
  simp only [mul_sum, hcount, sum_const, hcard, card_univ, Fintype.card_fin, smul_eq_mul]
  ring

example := C78_mean_outside (train := 9) (n := 10) (m := 4) (by norm_num)

/-- The regression is not made with the kernel of the coreset: scikit-learn's parameter `gamma` gives the squared exponential
kernel of length scale `l` exactly if `2 gamma l^2 = 1`; `gamma = l` does so for one length scale only. -/
theorem C78_gamma {d : ℕ} (hd : 0 < d) {gamma l : ℝ} (hl : 0 < l) :
    ((∀ x y : Vec d, rbfKernel gamma x y = (KExpr.squaredExponential l 1 : KExpr d).sem.compute x y) ↔ 2 * gamma * l ^ 2 = 1) ∧
    ((∀ x y : Vec d, rbfKernel l x y = (KExpr.squaredExponential l 1 : KExpr d).sem.compute x y) ↔ 2 * l ^ 3 = 1) := by
  have key : ∀ gamma : ℝ,
      (∀ x y : Vec d, rbfKernel gamma x y = (KExpr.squaredExponential l 1 : KExpr d).sem.compute x y) ↔ 2 * gamma * l ^ 2 = 1 := by
    intro gamma
    simp only [rbfKernel, KExpr.sem, squaredExponentialSem, one_mul, Real.exp_eq_exp]
    constructor
    · intro h
      have := h (Pi.single ⟨0, hd⟩ 1) 0
      have hs : sqDist (Pi.single (⟨0, hd⟩ : Fin d) (1 : ℝ) : Vec d) 0 = 1 := by
        unfold sqDist
        rw [Finset.sum_eq_single ⟨0, hd⟩] <;> simp +contextual [Pi.single_apply]
      rw [hs] at this
      have hl2 : (2 * l ^ 2 : ℝ) ≠ 0 := by positivity
      field_simp at this
      linarith
    · intro h x y
      have hl2 : (2 * l ^ 2 : ℝ) ≠ 0 := by positivity
      rw [eq_div_iff hl2]
      linear_combination -sqDist x y * h
  refine ⟨key gamma, ?_⟩
  rw [key l]
  constructor <;> intro h <;> linarith

example := C78_gamma (d := 1) (by norm_num) (gamma := 1 / 2) (l := 1) one_pos

/-- The kernel of the regression depends on the units of the data: in other units the length scale of the coreset's kernel adapts and
that kernel stays the same, but the other one is that of `c^3` times the parameter. -/
theorem C78_units {d : ℕ} {c l : ℝ} (hc : 0 < c) (x y : Vec d) :
    (KExpr.squaredExponential (c * l) 1 : KExpr d).sem.compute (c • x) (c • y) =
      (KExpr.squaredExponential l 1 : KExpr d).sem.compute x y ∧
    rbfKernel (c * l) (c • x) (c • y) = rbfKernel (c ^ 3 * l) x y := by
  have hs : sqDist (c • x) (c • y) = c ^ 2 * sqDist x y := by
    unfold sqDist
    rw [Finset.mul_sum]
    refine Finset.sum_congr rfl fun i _ => ?_
    simp only [Pi.smul_apply, smul_eq_mul]
    ring
  constructor
  · simp only [KExpr.sem, squaredExponentialSem, hs]
    congr 2
    rw [mul_pow, mul_left_comm, ← mul_neg, mul_div_mul_left _ _ (by positivity)]
  · unfold rbfKernel
    rw [hs]
    congr 1
    ring

example := C78_units (d := 2) (c := 1000) (l := 2) (by norm_num) ![1, 2] ![0, 1]

end Coreax
