import Verif.Model.Mean
import Verif.Model.Recombination

/-!
# Model of the approximate kernels

`/repo/coreax/approximation.py`.  Only the Gramian row mean is
approximated; values, gradients and divergences are forwarded to the base kernel (lines 125-137) and have no model of
their own.
-/

namespace Coreax

/-- `jr.choice(key, n, (k,), replace=False)` for a fixed key (external): equal arguments give equal results. -/
abbrev IndexDraw := ∀ (n k : ℕ), Fin k → ℤ

/-- `jnp.linalg.lstsq(a, b)[0]` for a rectangular matrix and a vector (external). -/
abbrev RectLstsq (K : Type*) := ∀ {t f : ℕ}, (Fin t → Fin f → K) → (Fin t → K) → (Fin f → K)

/-- `RandomRegressionKernel.__check_init__`; `/repo/coreax/approximation.py:155-160`. -/
def regressionCheckInit (numKernel numTrain : ℤ) : Except Err Unit :=
  if numKernel ≤ 0 then .error .valueError else if numTrain ≤ 0 then .error .valueError else .ok ()

/-- `_random_indices`; `/repo/coreax/approximation.py:49-74`: `jr.choice` raises `ValueError` if more points are asked for than there are. -/
def randomIndices (draw : IndexDraw) (n k : ℕ) : Except Err (Fin k → ℤ) :=
  if k > n then .error .valueError else .ok (draw n k)

section
variable {K X : Type*} [Field K] [LinearOrder K]

/-- `_random_least_squares`; `/repo/coreax/approximation.py:77-106`. -/
def randomLeastSquares (draw : IndexDraw) (lstsq : RectLstsq K) {n f : ℕ} [NeZero n] (data : Fin n → X) (features : Fin n → Fin f → K) (t : ℕ)
    (targetMap : (Fin t → X) → Except Err (List K)) : Except Err (Fin n → K) :=
  match randomIndices draw n t with
  | .error e => .error e
  | .ok idx =>
    match targetMap (fun s => data (gatherIdx n (idx s))) with
    | .error e => .error e
    | .ok target =>
      let solution := lstsq (fun s => features (gatherIdx n (idx s))) (asVec t target)
      .ok (fun i => ∑ j, features i j * solution j)

variable [Zero X]

/-- `MonteCarloApproximateKernel.gramian_row_mean`; `/repo/coreax/approximation.py:178-213`: `num_kernel_points - 1` features. Weights of `x` are dropped
(lines 198-200). -/
def monteCarloRowMean (draw : IndexDraw) (lstsq : RectLstsq K) (big : K) (k : X → X → K) (numKernel numTrain : ℕ) {n : ℕ} [NeZero n] (x : Fin n → X) :
    Except Err (Fin n → K) :=
  match randomIndices draw n (numKernel - 1) with
  | .error e => .error e
  | .ok idx => randomLeastSquares draw lstsq x (fun i j => k (x i) (x (gatherIdx n (idx j)))) numTrain
      (fun y => computeMean big k (Data.ofArray x) (Data.ofArray y) .zero (.leaf none))

/-- `_features.max(axis=1)`. -/
def rowMax {f : ℕ} [NeZero f] (row : Fin f → K) : K := Finset.univ.sup' ⟨0, Finset.mem_univ _⟩ row

/-- `_annchor_body`; `/repo/coreax/approximation.py:261-275`. -/
def annchorBody (k : X → X → K) {n f : ℕ} [NeZero n] [NeZero f] (x : Fin n → X) (idx : Fin f) (features : Fin n → Fin f → K) : Fin n → Fin f → K :=
  let maxEntry := argminFirst (fun i => rowMax (features i))
  fun i => Function.update (features i) idx (k (x i) (x maxEntry))

/-- The ANNchor features; `/repo/coreax/approximation.py:257-277`. -/
def annchorFeatures (k : X → X → K) {n : ℕ} (f : ℕ) [NeZero n] [NeZero f] (x : Fin n → X) : Fin n → Fin f → K :=
  forLoop (f - 1) (fun idx feats => annchorBody k x ⟨(idx : ℕ) + 1, by have := idx.2; omega⟩ feats)
    (fun i => Function.update (fun _ => 0) 0 (k (x i) (x 0)))

/-- `ANNchorApproximateKernel.gramian_row_mean`; `/repo/coreax/approximation.py:230-284`. -/
def annchorRowMean (draw : IndexDraw) (lstsq : RectLstsq K) (big : K) (k : X → X → K) (numKernel numTrain : ℕ) [NeZero numKernel] {n : ℕ} [NeZero n]
    (x : Fin n → X) : Except Err (Fin n → K) :=
  randomLeastSquares draw lstsq x (annchorFeatures k numKernel x) numTrain
    (fun y => computeMean big k (Data.ofArray x) (Data.ofArray y) .zero (.leaf none))

/-- `NystromApproximateKernel.gramian_row_mean`; `/repo/coreax/approximation.py:301-340`: the target is the row mean of the *training subset*. -/
def nystromRowMean (draw : IndexDraw) (lstsq : RectLstsq K) (big : K) (k : X → X → K) (numKernel numTrain : ℕ) {n : ℕ} [NeZero n] (x : Fin n → X) :
    Except Err (Fin n → K) :=
  match randomIndices draw n numKernel with
  | .error e => .error e
  | .ok idx => randomLeastSquares draw lstsq x (fun i j => k (x i) (x (gatherIdx n (idx j)))) numTrain
      (fun y => gramianRowMean big k (Data.ofArray y) (.leaf none))

end

end Coreax
