import Verif.Model.Greedy
import Verif.Model.Random
import Mathlib.Analysis.SpecialFunctions.Exp

/-!
# The random choice of probabilistic kernel herding (`coreax/solvers/coresubset.py:343-349`)
-/

namespace Coreax

/-- `jnp.exp` on floats. -/
noncomputable def Ext.expF : Ext ℝ → Ext ℝ
  | .nan => .nan
  | .ninf => .fin 0
  | .fin x => .fin (Real.exp x)
  | .pinf => .pinf

/-- `jnp.maximum`: NaN if either is. -/
noncomputable def Ext.maxOp : Ext ℝ → Ext ℝ → Ext ℝ
  | .nan, _ => .nan
  | _, .nan => .nan
  | .pinf, _ => .pinf
  | _, .pinf => .pinf
  | .ninf, b => b
  | a, .ninf => a
  | .fin x, .fin y => .fin (max x y)

/-- `jnp.max(x, initial=-inf)`. -/
noncomputable def Ext.maxF {n : ℕ} (x : Fin n → Ext ℝ) : Ext ℝ := (List.ofFn x).foldl Ext.maxOp .ninf

/-- `jax.nn.softmax`: `exp(x - max(x))` over its sum. -/
noncomputable def softmax {n : ℕ} (x : Fin n → Ext ℝ) : Fin n → Ext ℝ :=
  fun j => Ext.expF (x j - Ext.maxF x) / Ext.sum fun l => Ext.expF (x l - Ext.maxF x)

/-- `jax.nn.softmax(valid_residuals / self.temperature)`; `/repo/coreax/solvers/coresubset.py:345`. -/
noncomputable def herdingProbs {n : ℕ} (temperature : ℝ) (residuals : Fin n → Ext ℝ) : Fin n → Ext ℝ :=
  softmax fun j => residuals j / Ext.fin temperature

/-- `jr.choice(jr.fold_in(random_key, i), n, (), p=probs, replace=False)`: iteration and probabilities ↦ index. External (random). -/
abbrev SingleChoice (n : ℕ) := ℕ → (Fin n → Ext ℝ) → ℤ

/-- The draw of probabilistic herding; `/repo/coreax/solvers/coresubset.py:344-349`. -/
noncomputable def softmaxDraw {n : ℕ} (choice : SingleChoice n) (temperature : ℝ) : Draw n ℝ :=
  fun i residuals => choice i (herdingProbs temperature residuals)

end Coreax
