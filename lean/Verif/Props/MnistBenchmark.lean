import Verif.Model.Benchmarks
import Verif.Lemmas.Basic

/-!
# C61: batches, evaluation and early stopping in the MNIST benchmark
-/

set_option linter.unusedSectionVars false

namespace Coreax

variable {K : Type} [Field K] [LinearOrder K] [IsStrictOrderedRing K] {S R : Type}

namespace Spec

/-- Training on one batch after the other: the last state and the values of all batches. -/
def runBatches (step : S → List R → S × K × K) : S → List (List R) → S × List (K × K)
  | s, [] => (s, [])
  | s, b :: bs => let t := step s b; let r := runBatches step t.1 bs; (r.1, t.2 :: r.2)

/-- The best accuracy after `e` epochs, when an improvement must exceed `delta`; `acc i` is the accuracy after epoch `i`. -/
def bestAfter (acc : ℕ → K) (delta : K) : ℕ → K
  | 0 => 0
  | e + 1 => if acc (e + 1) > bestAfter acc delta e + delta then acc (e + 1) else bestAfter acc delta e

/-- Epoch `e` (counted from one) improves on all epochs before. -/
def Improves (acc : ℕ → K) (delta : K) (e : ℕ) : Prop := 1 ≤ e ∧ bestAfter acc delta (e - 1) + delta < acc e

end Spec

open Spec

/-! ### Batches -/

/-- The whole batches of the rows, in order. -/
def wholeBatches (rows : List R) (b : ℕ) : List (List R) := (List.range (rows.length / b)).map (batchRows rows b)

theorem wholeBatches_flatten (rows : List R) (b q : ℕ) (hq : q * b ≤ rows.length) : ((List.range q).map (batchRows rows b)).flatten = rows.take (q * b) := by
  induction q with
  | zero => simp
  | succ q ih =>
    have h : (q + 1) * b = q * b + b := by ring
    rw [List.range_succ, List.map_append, List.flatten_append, ih (by omega), h, List.take_add]
    simp [batchRows]

theorem wholeBatches_length (rows : List R) (b : ℕ) : ∀ x ∈ wholeBatches rows b, x.length = b := by
  intro x hx
  simp only [wholeBatches, List.mem_map, List.mem_range] at hx
  obtain ⟨i, hi, rfl⟩ := hx
  have h1 : (i + 1) * b ≤ rows.length := (Nat.mul_le_mul_right b hi).trans (Nat.div_mul_le_self _ _)
  have h2 : (i + 1) * b = i * b + b := by ring
  simp only [batchRows, List.length_take, List.length_drop]
  omega

theorem runBatches_append (step : S → List R → S × K × K) (l1 l2 : List (List R)) (s : S) :
    runBatches step s (l1 ++ l2) = ((runBatches step (runBatches step s l1).1 l2).1, (runBatches step s l1).2 ++ (runBatches step (runBatches step s l1).1 l2).2) := by
  induction l1 generalizing s with
  | nil => simp [runBatches]
  | cons a l1 ih => simp [runBatches, ih]

theorem trainLoop_eq (step : S → List R → S × K × K) (state : S) (rows : List R) (b q : ℕ) :
    forLoop q (fun (i : Fin q) (s : S × K × K) =>
        let t := step s.1 (batchRows rows b i)
        (t.1, s.2.1 + t.2.1, s.2.2 + t.2.2)) (state, 0, 0) =
      ((runBatches step state ((List.range q).map (batchRows rows b))).1,
        ((runBatches step state ((List.range q).map (batchRows rows b))).2.map Prod.fst).sum,
        ((runBatches step state ((List.range q).map (batchRows rows b))).2.map Prod.snd).sum) := by
  refine forLoop_inv (P := fun t s => s = ((runBatches step state ((List.range t).map (batchRows rows b))).1,
        ((runBatches step state ((List.range t).map (batchRows rows b))).2.map Prod.fst).sum,
        ((runBatches step state ((List.range t).map (batchRows rows b))).2.map Prod.snd).sum)) _ _ _ ?_ ?_
  · simp [runBatches]
  · rintro i s rfl
    rw [List.range_succ, List.map_append, runBatches_append]
    simp [runBatches]

/-- C61: an epoch of training uses the rows in consecutive batches of exactly `batch_size` rows, each row of the first `⌊n / batch_size⌋ * batch_size` once and in order, and none
of the rows after them; loss and accuracy are the means over the batches. -/
theorem C61_train_epoch (step : S → List R → S × K × K) (state : S) (rows : List R) (batchSize : ℕ) (hb : 1 ≤ batchSize) (hn : batchSize ≤ rows.length) :
    ∃ batches : List (List R), batches.flatten = rows.take (rows.length / batchSize * batchSize) ∧ (∀ x ∈ batches, x.length = batchSize) ∧
      trainEpoch step state rows batchSize = .ok ((runBatches step state batches).1,
        ((runBatches step state batches).2.map Prod.fst).sum / batches.length, ((runBatches step state batches).2.map Prod.snd).sum / batches.length) := by
  refine ⟨wholeBatches rows batchSize, wholeBatches_flatten rows batchSize _ (Nat.div_mul_le_self _ _), wholeBatches_length rows batchSize, ?_⟩
  have hq : rows.length / batchSize ≠ 0 := (Nat.div_pos hn hb).ne'
  simp only [trainEpoch, if_neg (show batchSize ≠ 0 by omega), if_neg hq]
  rw [trainLoop_eq]
  simp [wholeBatches]

example := C61_train_epoch (K := ℚ) (fun (s : ℕ) (b : List ℕ) => (s + b.length, 1, 1)) 0 [1, 2, 3, 4, 5] 2 (by norm_num) (by norm_num)

/-- C61: training and evaluation raise `ZeroDivisionError` if there is no whole batch (or the batch size is zero), and in no other case. -/
theorem C61_zero_division (step : S → List R → S × K × K) (eval : List R → K × K) (state : S) (rows : List R) (batchSize : ℕ) :
    (batchSize = 0 ∨ rows.length < batchSize → trainEpoch step state rows batchSize = .error .zeroDivisionError ∧
      evaluateModel eval rows batchSize = .error .zeroDivisionError) ∧
    (¬ (batchSize = 0 ∨ rows.length < batchSize) → (∃ r, trainEpoch step state rows batchSize = .ok r) ∧ ∃ r, evaluateModel eval rows batchSize = .ok r) := by
  constructor
  · rintro (h | h)
    · simp [trainEpoch, evaluateModel, h]
    · have h0 : rows.length / batchSize = 0 := Nat.div_eq_of_lt h
      simp [trainEpoch, evaluateModel, h0]
  · intro h
    push Not at h
    have hq : rows.length / batchSize ≠ 0 := (Nat.div_pos h.2 (by omega)).ne'
    simp only [trainEpoch, evaluateModel, if_neg h.1, if_neg hq]
    exact ⟨⟨_, rfl⟩, ⟨_, rfl⟩⟩

/-! ### Evaluation -/

theorem evalLoop_eq (eval : List R → K × K) (rows : List R) (b q : ℕ) :
    forLoop q (fun (i : Fin q) (s : K × K) =>
        let t := eval (batchRows rows b i)
        (s.1 + t.1, s.2 + t.2)) (0, 0) =
      (((List.range q).map fun i => (eval (batchRows rows b i)).1).sum, ((List.range q).map fun i => (eval (batchRows rows b i)).2).sum) := by
  refine forLoop_inv (P := fun t s => s = (((List.range t).map fun i => (eval (batchRows rows b i)).1).sum, ((List.range t).map fun i => (eval (batchRows rows b i)).2).sum)) _ _ _ ?_ ?_
  · simp
  · rintro i s rfl
    simp [List.range_succ]

theorem filter_batches (correct : R → Bool) (b : ℕ) (hb : (b : K) ≠ 0) : ∀ l : List (List R), (∀ x ∈ l, x.length = b) →
    (l.map fun x => (batchAccuracy correct x : K)).sum = ((l.flatten.filter correct).length : K) / b
  | [], _ => by simp
  | a :: l, h => by
    rw [List.map_cons, List.sum_cons, filter_batches correct b hb l fun x hx => h x (by simp [hx]), List.flatten_cons, List.filter_append, List.length_append, batchAccuracy,
      h a (by simp)]
    push_cast
    rw [add_div]

/-- C61: the accuracy of `evaluate` is the fraction of right predictions among the first `⌊n / batch_size⌋ * batch_size` rows; the rows after them are not tested. -/
theorem C61_accuracy (loss : List R → K) (correct : R → Bool) (rows : List R) (batchSize : ℕ) (hb : 1 ≤ batchSize) (hn : batchSize ≤ rows.length) :
    ∃ l, evaluateModel (fun b => (loss b, batchAccuracy correct b)) rows batchSize = .ok (l,
      (((rows.take (rows.length / batchSize * batchSize)).filter correct).length : K) / ((rows.length / batchSize * batchSize : ℕ) : K)) := by
  have hq : rows.length / batchSize ≠ 0 := (Nat.div_pos hn hb).ne'
  have hbk : (batchSize : K) ≠ 0 := by rw [Nat.cast_ne_zero]; omega
  have hqk : ((rows.length / batchSize : ℕ) : K) ≠ 0 := by rw [Nat.cast_ne_zero]; exact hq
  refine ⟨((List.range (rows.length / batchSize)).map fun i => loss (batchRows rows batchSize i)).sum / ((rows.length / batchSize : ℕ) : K), ?_⟩
  simp only [evaluateModel, if_neg (show batchSize ≠ 0 by omega), if_neg hq]
  have hl := evalLoop_eq (fun b => (loss b, (batchAccuracy correct b : K))) rows batchSize (rows.length / batchSize)
  simp only at hl
  rw [hl]
  have h := filter_batches (K := K) correct batchSize hbk (wholeBatches rows batchSize) (wholeBatches_length rows batchSize)
  rw [wholeBatches, wholeBatches_flatten rows batchSize _ (Nat.div_mul_le_self _ _), List.map_map] at h
  simp only [Function.comp_def] at h
  simp only [h]
  congr 2
  rw [Nat.cast_mul, div_div, mul_comm (batchSize : K)]

example := C61_accuracy (K := ℚ) (fun (_ : List ℕ) => 1) (fun r => r % 2 == 0) [1, 2, 3, 4, 5] 2 (by norm_num) (by norm_num)

/-- C61: with the batch size that the benchmark derives from the coreset, training works exactly for coresets of two rows or more, and leaves out fewer rows than one batch, which
is at most 64. -/
theorem C61_batch_size (step : S → List R → S × K × K) (state : S) (rows : List R) :
    ((∃ r, trainEpoch step state rows (mnistBatchSize rows.length) = .ok r) ↔ 2 ≤ rows.length) ∧
      (2 ≤ rows.length → rows.length - rows.length / mnistBatchSize rows.length * mnistBatchSize rows.length < mnistBatchSize rows.length ∧
        mnistBatchSize rows.length ≤ 64 ∧ 2 ≤ rows.length / mnistBatchSize rows.length) := by
  have hz := C61_zero_division step (fun _ => ((0 : K), (0 : K))) state rows (mnistBatchSize rows.length)
  have hle : mnistBatchSize rows.length * 2 ≤ rows.length := by unfold mnistBatchSize; omega
  constructor
  · constructor
    · rintro ⟨r, hr⟩
      by_contra hlt
      have h0 : mnistBatchSize rows.length = 0 := by unfold mnistBatchSize; omega
      rw [(hz.1 (.inl h0)).1] at hr
      cases hr
    · intro h
      refine (hz.2 ?_).1
      unfold mnistBatchSize
      omega
  · intro h
    have hpos : 0 < mnistBatchSize rows.length := by unfold mnistBatchSize; omega
    refine ⟨?_, by unfold mnistBatchSize; omega, ?_⟩
    · have h1 := Nat.mod_lt rows.length hpos
      have h2 := Nat.div_add_mod rows.length (mnistBatchSize rows.length)
      rw [Nat.mul_comm] at h2
      omega
    · rw [Nat.le_div_iff_mul_le hpos]
      omega

/-- A coreset of 25 rows: batches of 12, one row is never used. -/
example : mnistBatchSize 25 = 12 ∧ 25 / 12 * 12 = 24 := by decide +kernel

/-- Ten thousand test rows are evaluated in batches of 12: four are left out. -/
example : 10000 - 10000 / 12 * 12 = 4 := by norm_num

/-! ### Early stopping -/

section stopping

/-- The number of epochs since the last improvement. -/
def sinceBest (acc : ℕ → K) (delta : K) : ℕ → ℕ
  | 0 => 0
  | e + 1 => if acc (e + 1) > bestAfter acc delta e + delta then 0 else sinceBest acc delta e + 1

/-- The last improvement up to epoch `e`. -/
def lastBest (acc : ℕ → K) (delta : K) : ℕ → Option ℕ
  | 0 => none
  | e + 1 => if acc (e + 1) > bestAfter acc delta e + delta then some (e + 1) else lastBest acc delta e

theorem improves_succ (acc : ℕ → K) (delta : K) (e : ℕ) : Improves acc delta (e + 1) ↔ acc (e + 1) > bestAfter acc delta e + delta := by
  simp [Improves]

theorem sinceBest_ge (acc : ℕ → K) (delta : K) (e p : ℕ) : p ≤ sinceBest acc delta e ↔ p ≤ e ∧ ∀ i, e - p < i → i ≤ e → ¬ Improves acc delta i := by
  induction e generalizing p with
  | zero =>
    simp only [sinceBest, Nat.le_zero_eq]
    constructor
    · rintro rfl
      refine ⟨rfl, fun i h1 h2 => by omega⟩
    · exact fun h => h.1
  | succ e ih =>
    simp only [sinceBest]
    by_cases hc : acc (e + 1) > bestAfter acc delta e + delta
    · rw [if_pos hc]
      constructor
      · intro h
        refine ⟨by omega, fun i h1 h2 => by omega⟩
      · rintro ⟨h1, h2⟩
        by_contra hp
        exact h2 (e + 1) (by omega) le_rfl ((improves_succ acc delta e).2 hc)
    · rw [if_neg hc]
      rcases p with _ | p
      · simp only [Nat.zero_le, true_and, true_iff]
        intro i h1 h2
        omega
      · rw [Nat.add_le_add_iff_right, ih p]
        constructor
        · rintro ⟨h1, h2⟩
          refine ⟨by omega, fun i hi1 hi2 => ?_⟩
          rcases Nat.lt_or_ge e i with h | h
          · have : i = e + 1 := by omega
            subst this
            rw [improves_succ]
            exact hc
          · exact h2 i (by omega) h
        · rintro ⟨h1, h2⟩
          refine ⟨by omega, fun i hi1 hi2 => h2 i (by omega) (by omega)⟩

theorem lastBest_spec (acc : ℕ → K) (delta : K) (e : ℕ) :
    (lastBest acc delta e = none ∧ bestAfter acc delta e = 0 ∧ ∀ i, i ≤ e → ¬ Improves acc delta i) ∨
      ∃ i, lastBest acc delta e = some i ∧ i ≤ e ∧ Improves acc delta i ∧ bestAfter acc delta e = acc i ∧ ∀ j, i < j → j ≤ e → ¬ Improves acc delta j := by
  induction e with
  | zero =>
    refine .inl ⟨rfl, rfl, fun i hi h => ?_⟩
    have := h.1
    omega
  | succ e ih =>
    by_cases hc : acc (e + 1) > bestAfter acc delta e + delta
    · refine .inr ⟨e + 1, ?_, le_rfl, (improves_succ acc delta e).2 hc, ?_, fun j h1 h2 => by omega⟩
      · simp only [lastBest, if_pos hc]
      · simp only [bestAfter, if_pos hc]
    · have hno := mt (improves_succ acc delta e).1 hc
      simp only [lastBest, bestAfter, if_neg hc]
      rcases ih with ⟨h1, h2, h3⟩ | ⟨i, h1, h2, h3, h4, h5⟩
      · refine .inl ⟨h1, h2, fun i hi => ?_⟩
        rcases Nat.lt_or_ge e i with h | h
        · have : i = e + 1 := by omega
          subst this
          exact hno
        · exact h3 i h
      · refine .inr ⟨i, h1, by omega, h3, h4, fun j hj1 hj2 => ?_⟩
        rcases Nat.lt_or_ge e j with h | h
        · have : j = e + 1 := by omega
          subst this
          exact hno
        · exact h5 j hj1 h

theorem le_bestAfter (acc : ℕ → K) (delta : K) (hd : 0 ≤ delta) (e : ℕ) : ∀ i, 1 ≤ i → i ≤ e → acc i ≤ bestAfter acc delta e + delta := by
  induction e with
  | zero => intro i h1 h2; omega
  | succ e ih =>
    intro i h1 h2
    simp only [bestAfter]
    by_cases hc : acc (e + 1) > bestAfter acc delta e + delta
    · rw [if_pos hc]
      rcases Nat.lt_or_ge e i with h | h
      · have : i = e + 1 := by omega
        subst this
        linarith
      · have := ih i h1 h
        linarith
    · rw [if_neg hc]
      rcases Nat.lt_or_ge e i with h | h
      · have : i = e + 1 := by omega
        subst this
        exact not_lt.1 hc
      · exact ih i h1 h

/-- The variables of the loop after `e` epochs. -/
def stopAt (epoch : S → S) (accuracy : S → K) (delta : K) (init : S) (e : ℕ) : StopState S K :=
  ⟨epoch^[e] init, bestAfter (fun i => accuracy (epoch^[i] init)) delta e, (lastBest (fun i => accuracy (epoch^[i] init)) delta e).map fun i => epoch^[i] init,
    sinceBest (fun i => accuracy (epoch^[i] init)) delta e⟩

theorem stopStep_at (epoch : S → S) (accuracy : S → K) (delta : K) (init : S) (e : ℕ) :
    stopStep epoch accuracy delta (stopAt epoch accuracy delta init e) = stopAt epoch accuracy delta init (e + 1) := by
  simp only [stopStep, stopAt, bestAfter, lastBest, sinceBest, Function.iterate_succ_apply']
  by_cases hc : accuracy (epoch (epoch^[e] init)) > bestAfter (fun i => accuracy (epoch^[i] init)) delta e + delta
  · simp only [if_pos hc, Option.map_some, Function.iterate_succ_apply']
    exact if_pos hc
  · simp only [if_neg hc]
    exact if_neg hc

theorem stopLoop_run (epoch : S → S) (accuracy : S → K) (delta : K) (init : S) (p : ℕ) : ∀ n e : ℕ,
    ∃ t, t ≤ n ∧ stopLoop epoch accuracy delta p n (stopAt epoch accuracy delta init e) = (stopAt epoch accuracy delta init (e + t), t) ∧ (1 ≤ n → 1 ≤ t) ∧
      (t < n → p ≤ sinceBest (fun i => accuracy (epoch^[i] init)) delta (e + t)) ∧
      ∀ j, 1 ≤ j → j < t → sinceBest (fun i => accuracy (epoch^[i] init)) delta (e + j) < p
  | 0, e => ⟨0, le_rfl, rfl, by omega, by omega, by omega⟩
  | n + 1, e => by
    simp only [stopLoop, stopStep_at]
    by_cases hc : (stopAt epoch accuracy delta init (e + 1)).patience ≥ p
    · rw [if_pos hc]
      exact ⟨1, by omega, rfl, fun _ => le_rfl, fun _ => hc, by omega⟩
    · rw [if_neg hc]
      obtain ⟨t, h1, h2, h3, h4, h5⟩ := stopLoop_run epoch accuracy delta init p n (e + 1)
      refine ⟨t + 1, by omega, ?_, by omega, ?_, ?_⟩
      · rw [h2]
        simp only
        rw [show e + 1 + t = e + (t + 1) by omega]
      · intro h
        have := h4 (by omega)
        rwa [show e + 1 + t = e + (t + 1) by omega] at this
      · intro j hj1 hj2
        rcases Nat.lt_or_ge 1 j with h | h
        · have := h5 (j - 1) (by omega) (by omega)
          rwa [show e + 1 + (j - 1) = e + j by omega] at this
        · have : j = 1 := by omega
          subst this
          exact not_le.1 hc

/-- C61: early stopping. Let `s i` be the state after `i` epochs. The loop trains `T` epochs, where `T` is the first epoch at which the last `patience` epochs brought no improvement
by more than `min_delta`, or the number of epochs allowed; the state reported is that of the last improvement, or of the last epoch if there was none. -/
theorem C61_early_stopping (epoch : S → S) (accuracy : S → K) (delta : K) (patience epochs : ℕ) (init : S) :
    ∃ T, (trainAndEvaluate epoch accuracy delta patience epochs init).2 = T ∧ T ≤ epochs ∧ (1 ≤ epochs → 1 ≤ T) ∧
      (T < epochs → patience ≤ T ∧ ∀ i, T - patience < i → i ≤ T → ¬ Improves (fun i => accuracy (epoch^[i] init)) delta i) ∧
      (∀ e, 1 ≤ e → e < T → patience ≤ e → ∃ i, e - patience < i ∧ i ≤ e ∧ Improves (fun i => accuracy (epoch^[i] init)) delta i) ∧
      (((∀ i ≤ T, ¬ Improves (fun i => accuracy (epoch^[i] init)) delta i) ∧
          (trainAndEvaluate epoch accuracy delta patience epochs init).1 = epoch^[T] init) ∨
        ∃ i ≤ T, Improves (fun i => accuracy (epoch^[i] init)) delta i ∧ (∀ j, i < j → j ≤ T → ¬ Improves (fun i => accuracy (epoch^[i] init)) delta j) ∧
          (trainAndEvaluate epoch accuracy delta patience epochs init).1 = epoch^[i] init) := by
  obtain ⟨t, h1, h2, h3, h4, h5⟩ := stopLoop_run epoch accuracy delta init patience epochs 0
  rw [Nat.zero_add] at h2 h4
  have hinit : (⟨init, 0, none, 0⟩ : StopState S K) = stopAt epoch accuracy delta init 0 := rfl
  refine ⟨t, ?_, h1, h3, ?_, ?_, ?_⟩
  · rw [trainAndEvaluate, hinit, h2]
  · intro h
    exact (sinceBest_ge _ _ _ _).1 (h4 h)
  · intro e he1 he2 hp
    have := h5 e he1 he2
    rw [Nat.zero_add] at this
    by_contra hno
    push Not at hno
    exact absurd ((sinceBest_ge _ _ _ _).2 ⟨hp, hno⟩) (not_le.2 this)
  · have hres : (trainAndEvaluate epoch accuracy delta patience epochs init).1 =
        ((lastBest (fun i => accuracy (epoch^[i] init)) delta t).map fun i => epoch^[i] init).getD (epoch^[t] init) := by
      rw [trainAndEvaluate, hinit, h2]
      rfl
    rw [hres]
    rcases lastBest_spec (fun i => accuracy (epoch^[i] init)) delta t with ⟨g1, -, g3⟩ | ⟨i, g1, g2, g3, -, g5⟩
    · exact .inl ⟨g3, by rw [g1]; rfl⟩
    · exact .inr ⟨i, g2, g3, g5, by rw [g1]; rfl⟩

/-- C61: the accuracy that is reported is the best of all epochs up to `min_delta`: the state is chosen by its accuracy on the test rows on which it is reported. -/
theorem C61_reported_best (epoch : S → S) (accuracy : S → K) (hacc : ∀ s, 0 ≤ accuracy s) (delta : K) (hd : 0 ≤ delta) (patience epochs : ℕ) (init : S) :
    ∀ i, 1 ≤ i → i ≤ (trainAndEvaluate epoch accuracy delta patience epochs init).2 →
      accuracy (epoch^[i] init) ≤ accuracy (trainAndEvaluate epoch accuracy delta patience epochs init).1 + delta := by
  intro i hi1 hi2
  obtain ⟨T, hT, -, -, -, -, hrep⟩ := C61_early_stopping epoch accuracy delta patience epochs init
  rw [hT] at hi2
  have hle := le_bestAfter (fun i => accuracy (epoch^[i] init)) delta hd T i hi1 hi2
  rcases lastBest_spec (fun i => accuracy (epoch^[i] init)) delta T with ⟨-, g2, g3⟩ | ⟨j, -, g2, g3, g4, g5⟩
  · have := hacc (trainAndEvaluate epoch accuracy delta patience epochs init).1
    simp only [g2] at hle
    linarith
  · rcases hrep with ⟨h1, -⟩ | ⟨j', h1, h2, h3, h4⟩
    · exact absurd g3 (h1 j g2)
    · have : j = j' := by
        rcases lt_trichotomy j j' with h | h | h
        · exact absurd h2 (g5 j' h h1)
        · exact h
        · exact absurd g3 (h3 j h g2)
      subst this
      rw [h4]
      simp only [g4] at hle
      exact hle

/-- Accuracies 0.1, 0.5, 0.5, 0.5, 0.9 with patience two: training stops after epoch four and never sees the 0.9. -/
example : trainAndEvaluate (S := ℕ) (K := ℚ) (· + 1) (fun i => ([0, 1 / 10, 1 / 2, 1 / 2, 1 / 2, 9 / 10] : List ℚ).getD i 0) (1 / 1000) 2 100 0 = (2, 4) := by
  decide +kernel

end stopping

end Coreax
