import Verif.Lemmas.Basic
import Verif.Props.SlicedScoreCases
import Mathlib.MeasureTheory.Integral.Prod
import Mathlib.MeasureTheory.Group.Integral
import Mathlib.Algebra.BigOperators.Pi

/-!
# C52: the loss of a training step, mini-batches and noise conditioning
-/

namespace Coreax

open MeasureTheory

variable {d : ℕ}

/-- C52: the settings that are accepted; in particular batches of zero points. -/
theorem C52_check_init (numEpochs batchSize numRandomVectors numNoiseModels : ℤ) :
    ssmCheckInit numEpochs batchSize numRandomVectors numNoiseModels =
      if 0 ≤ numEpochs ∧ 0 ≤ batchSize ∧ 1 ≤ numRandomVectors ∧ 1 ≤ numNoiseModels then .ok () else .error .valueError := by
  unfold ssmCheckInit
  split_ifs <;> first | rfl | omega

namespace Spec

/-- The mean over a batch and its random vectors of a function of one point and one random vector. -/
noncomputable def batchMean {b m : ℕ} (f : Vec d → Vec d → ℝ) (x : Fin b → Vec d) (v : Fin b → Fin m → Vec d) : ℝ :=
  (∑ r, ∑ l, f (x r) (v r l)) / (b * m)

end Spec

/-- The loss of one point and one random vector. -/
noncomputable def pointLoss (analytic : Bool) (jvp : Vec d → Vec d → Vec d × Vec d) (x v : Vec d) : ℝ := lossElement analytic (jvp x v) v

theorem standardLoss_eq (analytic : Bool) (jvp : Vec d → Vec d → Vec d × Vec d) {b m : ℕ} (hb : 0 < b) (hm : 0 < m) (x : Fin b → Vec d)
    (v : Fin b → Fin m → Vec d) : standardLoss analytic jvp x v = Ext.fin (Spec.batchMean (pointLoss analytic jvp) x v) := by
  unfold standardLoss Spec.batchMean pointLoss
  have : (b : ℝ) * m ≠ 0 := by positivity
  show Ext.div _ _ = _
  simp [Ext.div, this]

theorem forLoop_sum {t : ℕ} (g : Fin t → ℝ) :
    forLoop t (fun i (acc : Ext ℝ) => acc + Ext.fin (g i)) (Ext.fin 0) = Ext.fin (∑ i, g i) := by
  induction t with
  | zero => simp [forLoop]
  | succ t ih =>
    rw [forLoop, ih, Fin.sum_univ_castSucc]
    rfl

/-- C52: the loss of a training step on a non-empty batch: without noise conditioning the mean over the batch; with it, the sum over the
noise models of the squared noise level times the mean over the batch *moved by the noise level times `z`*. -/
theorem C52_loss_value (c : SsmConfig) (jvp : Vec d → Vec d → Vec d × Vec d) {b m : ℕ} (hb : 0 < b) (hm : 0 < m) (z x : Fin b → Vec d)
    (v : Fin b → Fin m → Vec d) :
    ssmLoss c jvp z x v = Ext.fin (if c.noise then
      ∑ i : Fin c.numNoise, (c.sigma * c.gamma ^ (i : ℕ)) ^ 2 *
        Spec.batchMean (pointLoss c.analytic jvp) (fun r k => x r k + c.sigma * c.gamma ^ (i : ℕ) * z r k) v
      else Spec.batchMean (pointLoss c.analytic jvp) x v) := by
  unfold ssmLoss
  by_cases hn : c.noise = true
  · simp only [hn, if_true, standardLoss_eq c.analytic jvp hb hm]
    exact forLoop_sum _
  · simp only [hn, if_false, standardLoss_eq c.analytic jvp hb hm, Bool.false_eq_true]

open Spec in
example (x : Fin 2 → Vec 1) := C52_loss_value (b := 2) (m := 1) ⟨true, false, 2, 1, 1 / 2⟩ (fun x v => (x, v)) (by norm_num) (by norm_num) (fun _ => 1) x (fun _ _ => 1)

/-- C52, a gap: with batches of zero points, which are accepted, every loss is NaN. -/
theorem C52_empty_batch (c : SsmConfig) (hn : 0 < c.numNoise) (jvp : Vec d → Vec d → Vec d × Vec d) {m : ℕ} (z x : Fin 0 → Vec d) (v : Fin 0 → Fin m → Vec d) :
    ssmLoss c jvp z x v = Ext.nan := by
  have h0 : ∀ x : Fin 0 → Vec d, standardLoss c.analytic jvp x v = Ext.nan := by
    intro x
    unfold standardLoss
    show Ext.div _ _ = _
    simp [Ext.div]
  unfold ssmLoss
  by_cases h : c.noise = true
  · simp only [h, if_true, h0]
    obtain ⟨t, ht⟩ : ∃ t, c.numNoise = t + 1 := ⟨c.numNoise - 1, by omega⟩
    have : ∀ (t : ℕ) (g : Fin (t + 1) → ℝ) (a : Ext ℝ), forLoop (t + 1) (fun i (acc : Ext ℝ) => acc + Ext.fin (g i) * Ext.nan) a = Ext.nan := by
      intro t g a
      rw [forLoop]
      generalize forLoop t _ a = y
      cases y <;> rfl
    generalize hg : (fun i : Fin c.numNoise => c.level i ^ 2) = g
    have hg' : ∀ i : Fin c.numNoise, c.level i ^ 2 = g i := fun i => congrFun hg i
    simp only [hg']
    clear hg hg'
    revert g
    rw [ht]
    exact fun g => this t g _
  · simp only [h, if_false, h0, Bool.false_eq_true]

example := C52_empty_batch (d := 1) (m := 1) ⟨true, false, 2, 1, 1 / 2⟩ (by norm_num) (fun x v => (x, v)) Fin.elim0 Fin.elim0 Fin.elim0

/-! ### Mini-batches -/

theorem sum_apply_index {n b : ℕ} (F : Fin n → ℝ) (r : Fin b) :
    ∑ idx : Fin b → Fin n, F (idx r) = (n : ℝ) ^ (b - 1) * ∑ j, F j := by
  classical
  have h1 : ∀ idx : Fin b → Fin n, F (idx r) = ∏ k : Fin b, (if k = r then F (idx k) else 1) := by
    intro idx
    rw [Finset.prod_ite_eq' Finset.univ r (fun k => F (idx k))]
    simp
  have h2 := Finset.prod_univ_sum (fun _ : Fin b => (Finset.univ : Finset (Fin n))) (fun k j => if k = r then F j else 1)
  rw [Fintype.piFinset_univ] at h2
  rw [Finset.sum_congr rfl fun idx _ => h1 idx, ← h2, ← Finset.mul_prod_erase _ _ (Finset.mem_univ r)]
  simp only [if_true]
  rw [mul_comm]
  congr 1
  rw [Finset.prod_congr rfl (g := fun _ => (n : ℝ)) (fun k hk => by simp [Finset.ne_of_mem_erase hk])]
  simp

theorem batchMean_average {n b m : ℕ} (hb : 0 < b) (hn : 0 < n) (f : Fin b → Vec d → Vec d → ℝ) (x : Fin n → Vec d) (v : Fin n → Fin m → Vec d) :
    (∑ idx : Fin b → Fin n, (∑ r, ∑ l, f r (x (idx r)) (v (idx r) l)) / ((b : ℝ) * m)) / (n : ℝ) ^ b =
      (∑ r, Spec.batchMean (f r) x v) / b := by
  unfold Spec.batchMean
  rw [← Finset.sum_div, Finset.sum_comm]
  have : ∀ r, ∑ idx : Fin b → Fin n, ∑ l, f r (x (idx r)) (v (idx r) l) = (n : ℝ) ^ (b - 1) * ∑ j, ∑ l, f r (x j) (v j l) :=
    fun r => sum_apply_index (fun j => ∑ l, f r (x j) (v j l)) r
  simp only [this]
  rw [← Finset.mul_sum, ← Finset.sum_div]
  have hp : (n : ℝ) ^ b = (n : ℝ) ^ (b - 1) * n := by rw [← pow_succ, Nat.sub_add_cancel hb]
  rw [hp]
  have h1 : (n : ℝ) ≠ 0 := by positivity
  have h2 : (b : ℝ) ≠ 0 := by positivity
  have h3 : (n : ℝ) ^ (b - 1) ≠ 0 := by positivity
  by_cases hm : (m : ℝ) = 0
  · simp [hm]
  · field_simp

/-- C52: a batch of independent uniform indices gives an unbiased estimate. Averaged over all choices of the indices, the loss of a step
without noise conditioning is the loss on all the data (each point with its own random vectors); with noise conditioning, it is the
average over the rows `r` of the batch of the losses on all the data *moved by the level times `z r`*: the same vectors for all
points, in every step. -/
theorem C52_minibatch (c : SsmConfig) (jvp : Vec d → Vec d → Vec d × Vec d) {n b m : ℕ} (hn : 0 < n) (hb : 0 < b) (hm : 0 < m) (z : Fin b → Vec d)
    (x : Fin n → Vec d) (v : Fin n → Fin m → Vec d) :
    ∃ L : (Fin b → Fin n) → ℝ, (∀ idx, ssmLoss c jvp z (fun r => x (idx r)) (fun r => v (idx r)) = Ext.fin (L idx)) ∧
      (∑ idx, L idx) / (n : ℝ) ^ b = if c.noise then
        ∑ i : Fin c.numNoise, (c.sigma * c.gamma ^ (i : ℕ)) ^ 2 *
          ((∑ r, Spec.batchMean (pointLoss c.analytic jvp) (fun j k => x j k + c.sigma * c.gamma ^ (i : ℕ) * z r k) v) / b)
        else Spec.batchMean (pointLoss c.analytic jvp) x v := by
  refine ⟨_, fun idx => C52_loss_value c jvp hb hm z _ _, ?_⟩
  by_cases h : c.noise = true
  · simp only [h, if_true]
    rw [Finset.sum_comm, Finset.sum_div]
    refine Finset.sum_congr rfl fun i _ => ?_
    rw [← Finset.mul_sum, mul_div_assoc]
    congr 1
    exact batchMean_average hb hn (fun r x v => pointLoss c.analytic jvp (fun k => x k + c.sigma * c.gamma ^ (i : ℕ) * z r k) v) x v
  · simp only [h, if_false, Bool.false_eq_true]
    have := batchMean_average hb hn (fun _ => pointLoss c.analytic jvp) x v
    refine this.trans ?_
    rw [Finset.sum_const, Finset.card_univ, Fintype.card_fin, nsmul_eq_mul]
    have h2 : (b : ℝ) ≠ 0 := by positivity
    field_simp

/-! ### Noise conditioning -/

/-- C52, a defect: the noise is drawn from a constant key in every step. With batches of one point, one noise model and the default
`sigma=1`, training with noise conditioning is exactly training without it on data that are all moved by the same vector: the same
parameters for every network, optimiser, initial state, number of epochs and sequence of batches. -/
theorem C52_noise_translation {State Params : Type} (T : Trainer d State Params) (analytic : Bool) (gamma : ℝ) {n m : ℕ} [NeZero n] (z : Fin 1 → Vec d)
    (init : State) (x : Fin n → Vec d) (v : Fin n → Fin m → Vec d) (epochs : ℕ) (idx : Fin epochs → Fin 1 → ℤ) :
    ssmMatch T ⟨true, analytic, 1, 1, gamma⟩ z init x v epochs idx =
      ssmMatch T ⟨false, analytic, 1, 1, gamma⟩ z init (fun j k => x j k + z 0 k) v epochs idx := by
  have hl : ∀ (jvp : Vec d → Vec d → Vec d × Vec d) (x : Fin 1 → Vec d) (v : Fin 1 → Fin m → Vec d),
      ssmLoss ⟨true, analytic, 1, 1, gamma⟩ jvp z x v = ssmLoss ⟨false, analytic, 1, 1, gamma⟩ jvp z (fun r k => x r k + z 0 k) v := by
    intro jvp x v
    unfold ssmLoss
    simp only [if_true, Bool.false_eq_true, if_false, forLoop, SsmConfig.level]
    have hx : (fun (r : Fin 1) k => x r k + 1 * gamma ^ ((Fin.last 0 : Fin 1) : ℕ) * z r k) = fun r k => x r k + z 0 k := by
      funext r k
      rw [Subsingleton.elim r 0]
      simp
    rw [hx]
    generalize standardLoss analytic jvp _ v = y
    have h1 : Ext.fin ((1 * gamma ^ ((Fin.last 0 : Fin 1) : ℕ)) ^ 2) = (Ext.fin 1 : Ext ℝ) := by simp
    rw [h1]
    cases y with
    | fin a => show Ext.fin (0 + 1 * a) = _; rw [one_mul, zero_add]
    | nan => rfl
    | ninf => show Ext.add (Ext.fin 0) (Ext.mul (Ext.fin 1) Ext.ninf) = _; simp [Ext.mul, Ext.add, Ext.signMul]
    | pinf => show Ext.add (Ext.fin 0) (Ext.mul (Ext.fin 1) Ext.pinf) = _; simp [Ext.mul, Ext.add, Ext.signMul]
  unfold ssmMatch ssmTrain trainStep
  simp only [hl]

/-! ### The whole run -/

namespace Spec

/-- The objective of one step on a batch, as a function of the parameters. -/
noncomputable def stepObjective {Params : Type} (analytic noise : Bool) (levels : ℕ → ℝ) (numNoise : ℕ) (jvp : Params → Vec d → Vec d → Vec d × Vec d)
    {b m : ℕ} (z x : Fin b → Vec d) (v : Fin b → Fin m → Vec d) (θ : Params) : ℝ :=
  if noise then ∑ l ∈ Finset.range numNoise, levels l ^ 2 * batchMean (pointLoss analytic (jvp θ)) (fun r k => x r k + levels l * z r k) v
  else batchMean (pointLoss analytic (jvp θ)) x v

end Spec

/-- C52: the run of the training as a whole. With batches `j i` of row numbers, the states are those of the optimiser applied, from the
initial state and once for every epoch, to the objective of the batch: points `x (j i r)` with *their own* random vectors `v (j i r)`, as a
function of the parameters that are optimised. The result is the network with the parameters of the last state. -/
theorem C52_training_run {State Params : Type} (T : Trainer d State Params) (c : SsmConfig) {n b m : ℕ} [NeZero n] (hb : 0 < b) (hm : 0 < m)
    (z : Fin b → Vec d) (init : State) (x : Fin n → Vec d) (v : Fin n → Fin m → Vec d) (epochs : ℕ) (j : ℕ → Fin b → Fin n) :
    ∃ s : ℕ → State, s 0 = init ∧
      (∀ i < epochs, s (i + 1) = T.step (s i) (fun θ => Ext.fin (Spec.stepObjective c.analytic c.noise (fun l => c.sigma * c.gamma ^ l) c.numNoise T.jvp z
        (fun r => x (j i r)) (fun r => v (j i r)) θ))) ∧
      ssmMatch T c z init x v epochs (fun i r => ((j i r : ℕ) : ℤ)) = T.net (T.params (s epochs)) := by
  refine ⟨fun t => ssmTrain T c z init x v t (fun i r => ((j i r : ℕ) : ℤ)), rfl, fun i _ => ?_, rfl⟩
  simp only [ssmTrain, forLoop, trainStep, gatherIdx_coe, Fin.val_last, Fin.val_castSucc]
  congr 1
  funext θ
  rw [C52_loss_value c (T.jvp θ) hb hm]
  unfold Spec.stepObjective
  rw [Finset.sum_range]

/-- C52: zero epochs return the initial network. -/
theorem C52_zero_epochs {State Params : Type} (T : Trainer d State Params) (c : SsmConfig) {n b m : ℕ} [NeZero n] (z : Fin b → Vec d)
    (init : State) (x : Fin n → Vec d) (v : Fin n → Fin m → Vec d) (idx : Fin 0 → Fin b → ℤ) :
    ssmMatch T c z init x v 0 idx = T.net (T.params init) := rfl

/-- The default settings, and a batch size of zero, are accepted; no random vector is not. -/
example : ssmCheckInit 10 64 1 100 = .ok () ∧ ssmCheckInit 10 0 1 100 = .ok () ∧ ssmCheckInit 10 64 0 100 = .error .valueError := by
  simp [C52_check_init]

/-- Two data points on the line, batches of one point, the field `s(x) = x`: losses `1 + x²/2` with random vector 1. -/
example : ∃ L : (Fin 1 → Fin 2) → ℝ, (∀ idx, ssmLoss (d := 1) ⟨false, false, 1, 1, 1⟩ (fun x v => (x, v)) (fun _ => 0)
      (fun r => (![fun _ => 1, fun _ => 3] : Fin 2 → Vec 1) (idx r)) (fun r => (fun _ _ _ => 1 : Fin 2 → Fin 1 → Vec 1) (idx r)) = Ext.fin (L idx)) ∧
    (∑ idx, L idx) / (2 : ℝ) ^ 1 = 7 / 2 := by
  obtain ⟨L, h1, h2⟩ := C52_minibatch (d := 1) ⟨false, false, 1, 1, 1⟩ (fun x v => (x, v)) (n := 2) (b := 1) (m := 1) (by norm_num) (by norm_num) (by norm_num)
    (fun _ => 0) ![fun _ => 1, fun _ => 3] (fun _ _ _ => 1)
  refine ⟨L, h1, ?_⟩
  have h3 : (∑ idx, L idx) / (2 : ℝ) ^ 1 = _ := h2
  rw [h3]
  norm_num [Spec.batchMean, pointLoss, lossElement, vdot, Fin.sum_univ_two]

/-- Two epochs with batches of one point, second then first: the optimiser that records the objectives at the parameter 1 has seen the
losses `1 + 3²/2` and `1 + 1²/2` of the field `s(x) = x`. -/
example : ∃ s : ℕ → List (Ext ℝ), s 0 = [] ∧ s 1 = [Ext.fin (11 / 2)] ∧ s 2 = [Ext.fin (11 / 2), Ext.fin (3 / 2)] := by
  obtain ⟨s, h0, h1, -⟩ := C52_training_run (d := 1) (State := List (Ext ℝ)) (Params := ℝ) ⟨fun _ => 1, fun s L => s ++ [L 1], fun θ x => fun k => θ * x k, fun θ x v => (fun k => θ * x k, fun k => θ * v k)⟩
    ⟨false, false, 1, 1, 1⟩ (n := 2) (b := 1) (m := 1) (by norm_num) (by norm_num) (fun _ => 0) [] ![fun _ => 1, fun _ => 3] (fun _ _ _ => 1) 2 (fun i _ => if i = 0 then 1 else 0)
  have e1 := h1 0 (by norm_num)
  have e2 := h1 1 (by norm_num)
  norm_num [Spec.stepObjective, Spec.batchMean, pointLoss, lossElement, vdot, h0] at e1
  norm_num [Spec.stepObjective, Spec.batchMean, pointLoss, lossElement, vdot, e1] at e2
  exact ⟨s, h0, e1, e2⟩

end Coreax
