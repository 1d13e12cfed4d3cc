import Verif.Model.Random
import Verif.Model.Metrics
import Mathlib.Data.Matrix.Mul

/-!
# Model of `coreax/least_squares.py`

`jnp.linalg.lstsq`, `qr` and `eigh`, and the Gaussian draws are parameters; what is assumed of them is in
`Verif/Spec/LeastSquares.lean` (`IsMinNormLstsq`, `QRContract`, `EighContract`).  Matrices are square where the code assumes it
(`_gaussian_range_finder` raises otherwise, `/repo/coreax/least_squares.py:172-176`; here by typing).
-/

namespace Coreax

open Matrix

variable {K : Type*} [Field K] [LinearOrder K]

/-- A regularised least-squares solver: array, parameter, target, identity ↦ solution. -/
abbrev RlsSolver (K : Type*) := ∀ {n q : ℕ}, Matrix (Fin n) (Fin n) K → K → Matrix (Fin n) (Fin q) K →
  Matrix (Fin n) (Fin n) K → Except Err (Matrix (Fin n) (Fin q) (Ext K))

/-- All the results, or the first error. -/
def collect {α : Type*} : {l : ℕ} → (Fin l → Except Err α) → Except Err (Fin l → α)
  | 0, _ => .ok Fin.elim0
  | _ + 1, f => match f 0 with
    | .error e => .error e
    | .ok a => match collect (fun t => f t.succ) with
      | .error e => .error e
      | .ok r => .ok (Fin.cons a r)

/-- `solve_stack`; `/repo/coreax/least_squares.py:99-122`: `vmap` over the leading axis of arrays and targets with
`abs(regularisation_parameter)` and a common identity. -/
def solveStack (solve : RlsSolver K) {l n q : ℕ} (arrays : Fin l → Matrix (Fin n) (Fin n) K) (reg : K)
    (targets : Fin l → Matrix (Fin n) (Fin q) K) (identity : Matrix (Fin n) (Fin n) K) :
    Except Err (Fin l → Matrix (Fin n) (Fin q) (Ext K)) :=
  collect fun t => solve (arrays t) |reg| (targets t) identity

/-- `MinimalEuclideanNormSolver.solve`; `/repo/coreax/least_squares.py:146-160`. -/
def minNormSolve (lstsq : LinSolve K) : RlsSolver K :=
  fun array reg target identity => .ok ((lstsq (array + |reg| • identity) target).map Ext.fin)

/-- `jnp.linalg.qr` of an `n × r` matrix: the orthonormal factor (with `min n r` columns), and the other one. -/
abbrev QR (K : Type*) := ∀ {n r : ℕ}, Matrix (Fin n) (Fin r) K →
  (s : ℕ) × Matrix (Fin n) (Fin s) K × Matrix (Fin s) (Fin r) K

/-- `jnp.linalg.eigh`: eigenvalues and eigenvectors. -/
abbrev Eigh (K : Type*) := ∀ {s : ℕ}, Matrix (Fin s) (Fin s) K → (Fin s → K) × Matrix (Fin s) (Fin s) K

/-- One power iteration; `/repo/coreax/least_squares.py:197-201`. -/
def powerStep (qr : QR K) {n : ℕ} (array : Matrix (Fin n) (Fin n) K) (q : (s : ℕ) × Matrix (Fin n) (Fin s) K) :
    (s : ℕ) × Matrix (Fin n) (Fin s) K :=
  let q' := qr (arrayᵀ * q.2)
  let q'' := qr (array * q'.2.1)
  ⟨q''.1, q''.2.1⟩

/-- `_gaussian_range_finder`; `/repo/coreax/least_squares.py:163-202`, for given draws. -/
def rangeFinder (qr : QR K) {n r : ℕ} (array : Matrix (Fin n) (Fin n) K) (draws : Matrix (Fin n) (Fin r) K)
    (iterations : ℕ) : (s : ℕ) × Matrix (Fin n) (Fin s) K :=
  let q := qr (array * draws)
  (powerStep qr array)^[iterations] ⟨q.1, q.2.1⟩

/-- `randomised_eigendecomposition`; `/repo/coreax/least_squares.py:284-320`. -/
def randomisedEig (qr : QR K) (eigh : Eigh K) {n r : ℕ} (array : Matrix (Fin n) (Fin n) K)
    (draws : Matrix (Fin n) (Fin r) K) (iterations : ℕ) : (s : ℕ) × (Fin s → K) × Matrix (Fin n) (Fin s) K :=
  let q := rangeFinder qr array draws iterations
  let e := eigh (q.2ᵀ * array * q.2)
  ⟨q.1, e.1, q.2 * e.2⟩

/-- `inverse_eigenvalues`; `/repo/coreax/least_squares.py:225-229`, with `m` the largest eigenvalue.  A division by zero
gives an infinity. -/
def inverseEigenvalue (rcond m ev : K) : Ext K :=
  if rcond * m ≤ ev then Ext.fin 1 / Ext.fin ev else Ext.fin 0

/-- `_eigendecomposition_invert`; `/repo/coreax/least_squares.py:205-232`.  `jnp.max` of an empty array raises
`ValueError`. -/
def eigInvert {n s : ℕ} (ev : Fin s → K) (U : Matrix (Fin n) (Fin s) K) (rcond : K) :
    Except Err (Matrix (Fin n) (Fin n) (Ext K)) :=
  match (List.ofFn ev).max? with
  | none => .error .valueError
  | some m => .ok fun a b => Ext.sum fun i => Ext.fin (U a i) * (inverseEigenvalue rcond m (ev i) * Ext.fin (U b i))

/-- `rcond` of `RandomisedEigendecompositionSolver.solve`; `/repo/coreax/least_squares.py:330-338`. -/
def resolveRcond (eps : K) (n : ℕ) : Option K → K
  | none => eps * n
  | some r => if r = -1 then eps else r

/-- `RandomisedEigendecompositionSolver.solve`; `/repo/coreax/least_squares.py:322-350`. -/
def randomisedSolve (eps : K) (qr : QR K) (eigh : Eigh K) (draws : ∀ n, (r : ℕ) × Matrix (Fin n) (Fin r) K) (iterations : ℕ)
    (rcond : Option K) : RlsSolver K :=
  fun {n _} array reg target identity =>
    let e := randomisedEig qr eigh (array + |reg| • identity) (draws n).2 iterations
    match eigInvert e.2.1 e.2.2 (resolveRcond eps n rcond) with
    | .error err => .error err
    | .ok inv => .ok fun a b => Ext.sum fun c => inv a c * Ext.fin (target c b)

/-- `RandomisedEigendecompositionSolver.__check_init__`, the part concerning `rcond`;
`/repo/coreax/least_squares.py:280-282`. -/
def checkRcond : Option K → Except Err Unit
  | none => .ok ()
  | some r => if r < 0 ∧ r ≠ -1 then .error .valueError else .ok ()

/-- A number given for a setting that should be an `int` (`True` and `False` are the integers 1 and 0). -/
inductive Setting (K : Type*)
  | int (z : ℤ)
  | float (r : Ext K)

/-- `(value <= 0.0) or not isinstance(value, int)`; `/repo/coreax/least_squares.py:274-276`. -/
def Setting.notPositiveInt : Setting K → Bool
  | .int z => decide (z ≤ 0)
  | .float r => (Ext.lt r (Ext.fin 0) || decide (r = Ext.fin 0)) || true

/-- `(value < 0.0) or not isinstance(value, int)`; `/repo/coreax/least_squares.py:278`. -/
def Setting.notNaturalInt : Setting K → Bool
  | .int z => decide (z < 0)
  | .float r => Ext.lt r (Ext.fin 0) || true

/-- `RandomisedEigendecompositionSolver.__check_init__`; `/repo/coreax/least_squares.py:272-282`. -/
def checkRandomised (oversampling power : Setting K) (rcond : Option K) : Except Err Unit :=
  if oversampling.notPositiveInt then .error .valueError
  else if power.notNaturalInt then .error .valueError
  else checkRcond rcond

end Coreax
