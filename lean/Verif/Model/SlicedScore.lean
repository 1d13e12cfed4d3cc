import Verif.Model.Kernel
import Mathlib.Analysis.SpecialFunctions.Log.Basic
import Mathlib.Analysis.SpecialFunctions.Exp

/-!
# Model of `coreax/networks.py` and of `SlicedScoreMatching` in `coreax/score_matching.py`

Numbers are real. Random vectors, noise, batch indices, initial parameters and the optimiser are parameters.
-/

namespace Coreax

variable {d : ℕ}

/-! ### The network -/

/-- Parameters of `nn.Dense`: kernel and bias; `/repo/coreax/networks.py:59, 62`. -/
structure Dense (a b : ℕ) where
  kernel : Fin a → Fin b → ℝ
  bias : Fin b → ℝ

/-- `nn.Dense.__call__`: `x @ kernel + bias`; `/repo/coreax/networks.py:59, 62`. -/
def Dense.apply {a b : ℕ} (l : Dense a b) (x : Vec a) : Vec b := fun j => (∑ i, x i * l.kernel i j) + l.bias j

/-- `nn.softplus`: `logaddexp(x, 0)`; `/repo/coreax/networks.py:60`. -/
noncomputable def softplus (x : ℝ) : ℝ := Real.log (1 + Real.exp x)

/-- Parameters of `ScoreNetwork`: any number of hidden layers of any sizes, then the output layer; `/repo/coreax/networks.py:35-62`. -/
inductive ScoreNet : ℕ → ℕ → Type
  | output {a b : ℕ} (l : Dense a b) : ScoreNet a b
  | hidden {a h b : ℕ} (l : Dense a h) (rest : ScoreNet h b) : ScoreNet a b

/-- `ScoreNetwork.__call__` on one vector; `/repo/coreax/networks.py:51-62`. -/
noncomputable def ScoreNet.apply : {a b : ℕ} → ScoreNet a b → Vec a → Vec b
  | _, _, .output l, x => l.apply x
  | _, _, .hidden l rest, x => rest.apply (fun j => softplus (l.apply x j))

/-- Forward-mode differentiation of the network as `jax.jvp` does it, layer by layer: value and tangent; the derivative of
`logaddexp(x, 0)` is the logistic function. `/repo/coreax/score_matching.py:242`, `/repo/coreax/networks.py:58-62`. -/
noncomputable def ScoreNet.jvp : {a b : ℕ} → ScoreNet a b → Vec a → Vec a → Vec b × Vec b
  | _, _, .output l, x, v => (l.apply x, fun j => ∑ i, v i * l.kernel i j)
  | _, _, .hidden l rest, x, v =>
    rest.jvp (fun j => softplus (l.apply x j)) (fun j => (∑ i, v i * l.kernel i j) * (Real.exp (l.apply x j) / (1 + Real.exp (l.apply x j))))

/-! ### The loss -/

/-- `__check_init__`: the four integers (already of type `int`); `/repo/coreax/score_matching.py:206-217`. -/
def ssmCheckInit (numEpochs batchSize numRandomVectors numNoiseModels : ℤ) : Except Err Unit :=
  if numEpochs < 0 ∨ batchSize < 0 then .error .valueError
  else if numRandomVectors < 1 ∨ numNoiseModels < 1 then .error .valueError
  else .ok ()

/-- `_loss_element` given the value `s` and the tangent `u` from `jax.jvp`; `/repo/coreax/score_matching.py:231-245`. -/
noncomputable def lossElement (analytic : Bool) (su : Vec d × Vec d) (v : Vec d) : ℝ :=
  if analytic then vdot v su.2 + (1 / 2) * vdot su.1 su.1 else vdot v su.2 + (1 / 2) * vdot v su.1 ^ 2

/-- `standard_loss`: the mean of the losses over a batch and its random vectors, NaN for an empty batch; `jvp` is
`jax.jvp` of the network; `/repo/coreax/score_matching.py:247, 265-268`. -/
noncomputable def standardLoss (analytic : Bool) (jvp : Vec d → Vec d → Vec d × Vec d) {b m : ℕ} (x : Fin b → Vec d) (v : Fin b → Fin m → Vec d) : Ext ℝ :=
  Ext.fin (∑ r, ∑ l, lossElement analytic (jvp (x r) (v r l)) (v r l)) / Ext.fin ((b : ℝ) * m)

/-- Configuration of `SlicedScoreMatching` that enters the loss; `/repo/coreax/score_matching.py:142-154`. -/
structure SsmConfig where
  noise : Bool
  analytic : Bool
  numNoise : ℕ
  sigma : ℝ
  gamma : ℝ

/-- `sigma * gamma**i`; `/repo/coreax/score_matching.py:274`. -/
noncomputable def SsmConfig.level (c : SsmConfig) (i : ℕ) : ℝ := c.sigma * c.gamma ^ i

/-- `loss` of `_train_step`. `z` is `jr.normal(jr.key(0), x.shape)`: the key is a constant, so that `z` depends on nothing but
the shape of the batch; `/repo/coreax/score_matching.py:270-281`. -/
noncomputable def ssmLoss (c : SsmConfig) (jvp : Vec d → Vec d → Vec d × Vec d) {b m : ℕ} (z : Fin b → Vec d) (x : Fin b → Vec d)
    (v : Fin b → Fin m → Vec d) : Ext ℝ :=
  if c.noise then
    forLoop c.numNoise (fun i acc =>
      acc + Ext.fin (c.level i ^ 2) * standardLoss c.analytic jvp (fun r k => x r k + c.level i * z r k) v) (Ext.fin 0)
  else standardLoss c.analytic jvp x v

/-! ### Training -/

/-- What training needs from outside: the parameters in a state, one step of gradient and optimiser on a loss as a function of the
parameters (`filter_value_and_grad`, `apply_gradients`), and the derivative of the network; `/repo/coreax/score_matching.py:265-285`. -/
structure Trainer (d : ℕ) (State Params : Type) where
  params : State → Params
  step : State → (Params → Ext ℝ) → State
  net : Params → Vec d → Vec d
  jvp : Params → Vec d → Vec d → Vec d × Vec d

/-- `_train_step`, the new state; `/repo/coreax/score_matching.py:249-285`. -/
noncomputable def trainStep {State Params : Type} (T : Trainer d State Params) (c : SsmConfig) {b m : ℕ} (z : Fin b → Vec d) (state : State)
    (x : Fin b → Vec d) (v : Fin b → Fin m → Vec d) : State :=
  T.step state (fun θ => ssmLoss c (T.jvp θ) z x v)

/-- The state after the training loop: `epochs` steps on the batches with indices `idx i` (draws of `jr.randint`);
`/repo/coreax/score_matching.py:322-328`. -/
noncomputable def ssmTrain {State Params : Type} (T : Trainer d State Params) (c : SsmConfig) {n b m : ℕ} [NeZero n] (z : Fin b → Vec d) (init : State)
    (x : Fin n → Vec d) (v : Fin n → Fin m → Vec d) (epochs : ℕ) (idx : Fin epochs → Fin b → ℤ) : State :=
  forLoop epochs (fun i state => trainStep T c z state (fun r => x (gatherIdx n (idx i r))) (fun r => v (gatherIdx n (idx i r)))) init

/-- `match` on a two-dimensional array: the learned score function; `/repo/coreax/score_matching.py:288-337`. -/
noncomputable def ssmMatch {State Params : Type} (T : Trainer d State Params) (c : SsmConfig) {n b m : ℕ} [NeZero n] (z : Fin b → Vec d) (init : State)
    (x : Fin n → Vec d) (v : Fin n → Fin m → Vec d) (epochs : ℕ) (idx : Fin epochs → Fin b → ℤ) : Vec d → Vec d :=
  T.net (T.params (ssmTrain T c z init x v epochs idx))

end Coreax
