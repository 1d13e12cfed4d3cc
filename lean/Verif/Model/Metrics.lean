import Verif.Model.Mean
import Mathlib.Data.Matrix.Mul
import Mathlib.Analysis.Real.Sqrt

/-!
# Model of `coreax/metrics.py`

The squared discrepancies are modelled over any ordered field (executable over `ℚ`), the final
`jnp.sqrt(jnp.maximum(0.0, ·))` over `ℝ`.
-/

namespace Coreax

/-- `jnp.sqrt(jnp.maximum(0.0, s))`; `/repo/coreax/metrics.py:140, 278, 427, 530`. -/
noncomputable def clipSqrt : Except Err ℝ → Except Err ℝ
  | .error e => .error e
  | .ok s => .ok (Real.sqrt (max 0 s))

section
variable {X Y K : Type*} [Field K] [LinearOrder K]

/-- The single entry of a `compute_mean(axis=None)` result. -/
def meanScalar : Except Err (List K) → Except Err K
  | .error e => .error e
  | .ok l => .ok (l.getD 0 0)

/-- `squared_mmd`; `/repo/coreax/metrics.py:129-139`.  The block size tree is repeated to two leaves `(a, b)`;
`product` yields `(a, a), (a, b), (b, a), (b, b)` and unpacking anything else than four items raises `ValueError`. -/
def mmdSquared [Zero X] (big : K) (k : X → X → K) {n m : ℕ} (x : Data n X K) (y : Data m X K) (bs : PyTree (Option ℤ)) :
    Except Err K :=
  match treeLeavesRepeat bs 2 with
  | [a, b] =>
    match meanScalar (computeMean big k x x .none (.node [.leaf a, .leaf a])) with
    | .error e => .error e
    | .ok xx =>
      match meanScalar (computeMean big k y y .none (.node [.leaf b, .leaf b])) with
      | .error e => .error e
      | .ok yy =>
        match meanScalar (computeMean big k x y .none (.node [.leaf a, .leaf b])) with
        | .error e => .error e
        | .ok xy => .ok (xx + yy - 2 * xy)
  | _ => .error .valueError

/-- `squared_ksd`; `/repo/coreax/metrics.py:247-277`.  `kp` is the converted Stein kernel, `logp` the density estimate's
log-density at the comparison points (`some` iff `regularise`), `lap` the values of the positive Laplace operator
(`some` iff `laplace_correct`); KDE and autodiff are external.  An empty comparison set fails in `compute_mean`. -/
def ksdSquared [Zero X] (big : K) (kp : X → X → K) {m : ℕ} (y : Data m X K) (bs : PyTree (Option ℤ))
    (logp lap : Option (Fin m → K)) : Except Err K :=
  match meanScalar (computeMean big kp y y .none bs) with
  | .error e => .error e
  | .ok s =>
    let entropic : K := match logp with
      | none => 0
      | some l => ((∑ i, l i) / (m : K)) / (m : K)
    let laplace : K := match lap with
      | none => 0
      | some l => (∑ i, l i) / (m : K) ^ 2
    .ok (s + laplace - entropic)

/-- `w1 @ (feature_kernel * response_kernel) @ w2`; `/repo/coreax/metrics.py:517-527`. -/
def jointMean (k : X → X → K) (r : Y → Y → K) {n m : ℕ} (x : Fin n → X) (y : Fin n → Y) (w : Fin n → K)
    (x' : Fin m → X) (y' : Fin m → Y) (w' : Fin m → K) : K :=
  ∑ j, (∑ i, w i * (k (x i) (x' j) * r (y i) (y' j))) * w' j

/-- `squared_jmmd`; `/repo/coreax/metrics.py:499-529`. -/
def jmmdSquared (big : K) (k : X → X → K) (r : Y → Y → K) {n m : ℕ} (p : SupData n X Y K) (q : SupData m X Y K) : K :=
  let p := p.normalizePZ big
  let q := q.normalizePZ big
  jointMean k r p.data p.supervision p.weights p.data p.supervision p.weights
    + jointMean k r q.data q.supervision q.weights q.data q.supervision q.weights
    - 2 * jointMean k r p.data p.supervision p.weights q.data q.supervision q.weights

/-- `kernel.compute(x, y)` as a matrix; `/repo/coreax/kernels/base.py:126-155`. -/
def gram (k : X → X → K) {n m : ℕ} (x : Fin n → X) (y : Fin m → X) : Matrix (Fin n) (Fin m) K :=
  Matrix.of fun i j => k (x i) (y j)

/-- `jnp.linalg.solve(a, b)` (external). -/
abbrev LinSolve (K : Type*) := ∀ {n q : ℕ}, Matrix (Fin n) (Fin n) K → Matrix (Fin n) (Fin q) K → Matrix (Fin n) (Fin q) K

/-- `jnp.sum(a.T @ r * b.T)` (matrix product, then elementwise); `/repo/coreax/metrics.py:413-423`. -/
def amcmdTerm {n m q : ℕ} (a : Matrix (Fin n) (Fin q) K) (r : Matrix (Fin n) (Fin m) K) (b : Matrix (Fin m) (Fin q) K) : K :=
  ∑ j, ∑ i, (a.transpose * r) j i * b.transpose j i

/-- `least_square_solution`: `solve(K + λ I, K(x, x3))`; `/repo/coreax/metrics.py:387-409`. -/
def cmeWeights (solve : LinSolve K) (k : X → X → K) (reg : K) {n q : ℕ} (x : Fin n → X) (x3 : Fin q → X) :
    Matrix (Fin n) (Fin q) K :=
  solve (gram k x x + (1 : Matrix (Fin n) (Fin n) K).map (· * reg)) (gram k x x3)

/-- `squared_amcmd` for given weighting points; `/repo/coreax/metrics.py:387-426`.  `1 / x3.shape[0]` is a division of
Python integers. -/
def amcmdSquaredAt (solve : LinSolve K) (k : X → X → K) (r : Y → Y → K) (reg : K) {n m q : ℕ} (d1 : SupData n X Y K)
    (d2 : SupData m X Y K) (x3 : Fin q → X) : Except Err K :=
  let a := cmeWeights solve k reg d1.data x3
  let b := cmeWeights solve k reg d2.data x3
  let t1 := amcmdTerm a (gram r d1.supervision d1.supervision) a
  let t2 := amcmdTerm b (gram r d2.supervision d2.supervision) b
  let t3 := amcmdTerm a (gram r d1.supervision d2.supervision) b
  if q = 0 then .error .zeroDivisionError else .ok (1 / (q : K) * (t1 + t2 - 2 * t3))

/-- `AMCMD(...).compute(...)` before the square root: `__check_init__` (lines 333-336), then the choice of weighting
points (lines 379-385); `/repo/coreax/metrics.py`. -/
def amcmdSquared (solve : LinSolve K) (k : X → X → K) (r : Y → Y → K) (reg : K) {n m q : ℕ} (d1 : SupData n X Y K)
    (d2 : SupData m X Y K) (weighting : Option (Data q X K)) : Except Err K :=
  if reg < 0 then .error .valueError
  else match weighting with
    | none => amcmdSquaredAt solve k r reg d1 d2 d1.data
    | some d3 => amcmdSquaredAt solve k r reg d1 d2 d3.data

end

section
variable {X Y : Type*}

/-- `MMD.compute`; `/repo/coreax/metrics.py:89-140`. -/
noncomputable def mmdCompute [Zero X] (big : ℝ) (k : X → X → ℝ) {n m : ℕ} (x : Data n X ℝ) (y : Data m X ℝ)
    (bs : PyTree (Option ℤ)) : Except Err ℝ := clipSqrt (mmdSquared big k x y bs)

/-- `KSD.compute` with the converted kernel; `/repo/coreax/metrics.py:198-278`. -/
noncomputable def ksdCompute [Zero X] (big : ℝ) (kp : X → X → ℝ) {m : ℕ} (y : Data m X ℝ) (bs : PyTree (Option ℤ))
    (logp lap : Option (Fin m → ℝ)) : Except Err ℝ := clipSqrt (ksdSquared big kp y bs logp lap)

/-- `JMMD.compute`; `/repo/coreax/metrics.py:476-530`. -/
noncomputable def jmmdCompute (big : ℝ) (k : X → X → ℝ) (r : Y → Y → ℝ) {n m : ℕ} (p : SupData n X Y ℝ)
    (q : SupData m X Y ℝ) : ℝ := Real.sqrt (max 0 (jmmdSquared big k r p q))

/-- `AMCMD.compute`; `/repo/coreax/metrics.py:333-427`. -/
noncomputable def amcmdCompute (solve : LinSolve ℝ) (k : X → X → ℝ) (r : Y → Y → ℝ) (reg : ℝ) {n m q : ℕ}
    (d1 : SupData n X Y ℝ) (d2 : SupData m X Y ℝ) (weighting : Option (Data q X ℝ)) : Except Err ℝ :=
  clipSqrt (amcmdSquared solve k r reg d1 d2 weighting)

end

end Coreax
