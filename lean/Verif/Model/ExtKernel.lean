import Verif.Model.Greedy
import Verif.Model.Kernel
import Verif.Model.Metrics
import Mathlib.Analysis.Calculus.Deriv.Basic

/-!
# Kernels whose values need not be numbers

The models of `Model/Mean.lean`, `Model/Metrics.lean`, `Model/Greedy.lean` and `Model/Kernel.lean` take kernel values, gradients and divergences to
be numbers.  Here the same code is modelled with IEEE rules for infinities and NaN (`Ext`), so that divisions by zero in the
closed-form derivatives and NaN in the data are covered.  Sums do not depend on the order of the terms: addition in `Ext` is
associative and commutative as finite arithmetic is exact (see `Model/Basic.lean`).  Weights are numbers.
-/

namespace Coreax

namespace Ext

variable {K : Type*}

instance [Zero K] : Zero (Ext K) := ⟨fin 0⟩

/-- Addition with infinities and NaN is associative and commutative, with unit zero. -/
instance [AddCommMonoid K] : AddCommMonoid (Ext K) where
  add_assoc a b c := by
    cases a <;> cases b <;> cases c <;> simp [HAdd.hAdd, Add.add, add]
    exact add_assoc _ _ _
  zero_add a := by
    cases a <;> simp [HAdd.hAdd, Add.add, add, OfNat.ofNat, Zero.zero]
    exact zero_add _
  add_zero a := by
    cases a <;> simp [HAdd.hAdd, Add.add, add, OfNat.ofNat, Zero.zero]
    exact add_zero _
  add_comm a b := by
    cases a <;> cases b <;> simp [HAdd.hAdd, Add.add, add]
    exact add_comm _ _
  nsmul := nsmulRec

end Ext

/-! ### Means -/

section
variable {X K : Type*} [Zero X] [Field K] [LinearOrder K]

/-- `slice_sum`; `/repo/coreax/kernels/base.py:567-575`. -/
def sliceSumX (k : X → X → Ext K) {Bx By : ℕ} (xb : Fin Bx → X × K) (acc : Ext K) (yb : Fin By → X × K) :
    Ext K × (Fin Bx → Ext K) :=
  let column : Fin Bx → Ext K := fun r => ∑ c, k (xb r).1 (yb c).1 * Ext.fin (yb c).2
  (acc + ∑ r, Ext.fin (xb r).2 * column r, column)

/-- `block_sum`; `/repo/coreax/kernels/base.py:562-580`. -/
def blockSumX (k : X → X → Ext K) {Bx By : ℕ} (blocksY : List (Fin By → X × K)) (acc : Ext K)
    (xb : Fin Bx → X × K) : Ext K × (Fin Bx → Ext K) :=
  let r := scan (sliceSumX k xb) acc blocksY
  (r.1, fun i => (r.2.map (fun c => c i)).sum)

/-- The double scan; `/repo/coreax/kernels/base.py:555-589`. -/
def columnMeanX (big : K) (k : X → X → Ext K) {n m : ℕ} (x : Data n X K) (y : Data m X K) (bx «by» : Option ℤ) :
    Except Err (Ext K × List (Ext K)) :=
  match blockDataConvert big x bx with
  | .error e => .error e
  | .ok ⟨_, blocksX⟩ =>
    match blockDataConvert big y «by» with
    | .error e => .error e
    | .ok ⟨_, blocksY⟩ =>
      let r := scan (blockSumX k blocksY) 0 blocksX
      let padded := (r.2.map List.ofFn).flatten
      .ok (r.1, padded.take n)

/-- `ScalarValuedKernel.compute_mean`; `/repo/coreax/kernels/base.py:480-589`. -/
def computeMeanX (big : K) (k : X → X → Ext K) {n m : ℕ} (x : Data n X K) (y : Data m X K) (axis : Axis)
    (blockSize : PyTree (Option ℤ)) : Except Err (List (Ext K)) :=
  match treeLeavesRepeat blockSize 2 with
  | [bx, «by»] =>
    match axis with
    | .zero => match columnMeanX big k y x «by» bx with
      | .ok r => .ok r.2
      | .error e => .error e
    | .one => match columnMeanX big k x y bx «by» with
      | .ok r => .ok r.2
      | .error e => .error e
    | .none => match columnMeanX big k x y bx «by» with
      | .ok r => .ok [r.1]
      | .error e => .error e
  | _ => .error .valueError

/-! ### Metrics -/

/-- `squared_mmd`; `/repo/coreax/metrics.py:129-139`. -/
def mmdSquaredX (big : K) (k : X → X → Ext K) {n m : ℕ} (x : Data n X K) (y : Data m X K) (bs : PyTree (Option ℤ)) :
    Except Err (Ext K) :=
  match treeLeavesRepeat bs 2 with
  | [a, b] =>
    match computeMeanX big k x x .none (.node [.leaf a, .leaf a]), computeMeanX big k y y .none (.node [.leaf b, .leaf b]),
      computeMeanX big k x y .none (.node [.leaf a, .leaf b]) with
    | .ok xx, .ok yy, .ok xy => .ok (xx.getD 0 0 + yy.getD 0 0 - Ext.fin 2 * xy.getD 0 0)
    | .error e, _, _ => .error e
    | _, .error e, _ => .error e
    | _, _, .error e => .error e
  | _ => .error .valueError

/-- `squared_ksd` without corrections; `/repo/coreax/metrics.py:247-277`. -/
def ksdSquaredX (big : K) (kp : X → X → Ext K) {m : ℕ} (y : Data m X K) (bs : PyTree (Option ℤ)) : Except Err (Ext K) :=
  match computeMeanX big kp y y .none bs with
  | .error e => .error e
  | .ok l => .ok (l.getD 0 0)

end

/-- `jnp.sqrt`: NaN below zero. -/
noncomputable def Ext.sqrtX : Ext ℝ → Ext ℝ
  | .nan => .nan
  | .ninf => .nan
  | .fin x => if x < 0 then .nan else .fin (Real.sqrt x)
  | .pinf => .pinf

/-- `MMD.compute`; `/repo/coreax/metrics.py:84-140`. -/
noncomputable def mmdComputeX {X : Type*} [Zero X] (big : ℝ) (k : X → X → Ext ℝ) {n m : ℕ} (x : Data n X ℝ) (y : Data m X ℝ)
    (bs : PyTree (Option ℤ)) : Except Err (Ext ℝ) :=
  match mmdSquaredX big k x y bs with
  | .error e => .error e
  | .ok s => .ok s.max0.sqrtX

/-- `KSD.compute` with the converted kernel; `/repo/coreax/metrics.py:198-278`. -/
noncomputable def ksdComputeX {X : Type*} [Zero X] (big : ℝ) (kp : X → X → Ext ℝ) {m : ℕ} (y : Data m X ℝ) (bs : PyTree (Option ℤ)) :
    Except Err (Ext ℝ) :=
  match ksdSquaredX big kp y bs with
  | .error e => .error e
  | .ok s => .ok s.max0.sqrtX

/-! ### Greedy solvers -/

section
variable {X K : Type*} [Zero X] [Field K] [LinearOrder K] {n : ℕ} [NeZero n] {m : ℕ}

/-- `jnp.ravel(kernel.compute(data, data[index]))`; `/repo/coreax/solvers/coresubset.py:181, 210`. -/
def kernelColumnX (k : X → X → Ext K) (data : Fin n → X) (index : ℤ) : Fin n → Ext K :=
  fun j => k (data j) (data (gatherIdx n index))

/-- The penalty after removing the element that is being replaced; lines 179-186. -/
def subtractOwnX (k : X → X → Ext K) (data : Fin n → X) (cw : Fin m → K) (i : Fin m) (s : GreedyState n m K) : Fin n → Ext K :=
  if cw i > 0 then fun j => s.pen j - kernelColumnX k data (s.idx i) j else s.pen

/-- `_greedy_body`; `/repo/coreax/solvers/coresubset.py:173-217`. -/
def greedyBodyX (k : X → X → Ext K) (data : Fin n → X) (data_weights : Fin n → K) (unique : Bool)
    (ord : List (Fin m)) (cw : Fin m → K) (sel : Selection n K) (i : Fin m) (s : GreedyState n m K) :
    GreedyState n m K :=
  let pen := subtractOwnX k data cw i s
  let size := if cw i > 0 then s.size else s.size + 1
  let new := sel i (maskedPenalty data_weights unique ord cw i s.idx pen) size
  let updated : Fin n → Ext K := fun j => pen j + kernelColumnX k data new j
  { idx := Function.update s.idx i new
    pen := if unique then setAt updated new Ext.pinf else updated
    size := size }

/-- The initial penalty; lines 156-171. -/
def initPenaltyX (big : K) (k : X → X → Ext K) (pre : Data n X K) (bs : PyTree (Option ℤ)) (c : Data m ℤ K) :
    Except Err ((Fin n → Ext K) × ℕ) :=
  let size := (Finset.univ.filter (fun t => c.weights t > 0)).card
  let points : Data m X K := ⟨fun t => pre.data (gatherIdx n (c.data t)), c.weights⟩
  match computeMeanX big k (Data.ofArray pre.data) points .one bs with
  | .error e => .error e
  | .ok l => .ok (fun j => Ext.fin (size : K) * asVec n l j, size)

/-- `_greedy_kernel_selection`; `/repo/coreax/solvers/coresubset.py:125-226`. -/
def greedySelectionX (big : K) (k : X → X → Ext K) (pre : Data n X K) (bs : PyTree (Option ℤ)) (unique : Bool)
    (sel : Selection n K) (out : ℕ) (c : Data m ℤ K) (ord : List (Fin (m + (out - m)))) :
    Except Err (Data out ℤ K) :=
  let p := padIndices c out
  match initPenaltyX big k pre bs p with
  | .error e => .error e
  | .ok (pen, size) =>
    let s := forLoop out
      (fun i => greedyBodyX k pre.data pre.weights unique ord p.weights sel (i.castLE (out_le_padded m out)))
      ⟨p.data, pen, size⟩
    .ok ⟨fun t => s.idx (t.castLE (out_le_padded m out)), fun _ => 1⟩

/-- `KernelHerding.reduce` without a cached row mean, deterministic; `/repo/coreax/solvers/coresubset.py:290-362`. -/
def herdingReduceX (big : K) (k : X → X → Ext K) (unique : Bool) (bs : PyTree (Option ℤ)) (size : ℕ)
    (pre : Data n X K) (ord : List (Fin (size + (size - size)))) : Except Err (Data size ℤ K × List (Ext K)) :=
  match (initialCoresubset 0 size n : Except Err (Data size ℤ K)) with
  | .error e => .error e
  | .ok c =>
    match computeMeanX big k pre pre .zero bs with
    | .error e => .error e
    | .ok rm =>
      match greedySelectionX big k pre bs unique
          (fun _ pen size => nanargmax fun j => asVec n rm j - pen j / Ext.fin (size : K)) size c ord with
      | .error e => .error e
      | .ok r => .ok (r, rm)

/-- `SteinThinning.reduce`; `/repo/coreax/solvers/coresubset.py:474-551`. -/
def steinReduceX (big : K) (k : X → X → Ext K) (unique : Bool) (bs : PyTree (Option ℤ)) (size : ℕ)
    (pre : Data n X K) (reg : Option (SteinReg n K)) (ord : List (Fin (size + (size - size)))) :
    Except Err (Data size ℤ K) :=
  match (initialCoresubset 0 size n : Except Err (Data size ℤ K)) with
  | .error e => .error e
  | .ok c =>
    let diag : Fin n → Ext K := fun j => k (pre.data j) (pre.data j)
    let (lap, logp) := match reg with
      | some r => (r.lap, r.logp)
      | none => (fun _ => 0, fun _ => 0)
    greedySelectionX big k pre bs unique (fun i pen _ => nanargmin fun j =>
      ((diag j + Ext.fin 2 * pen j) + Ext.fin (lap j)) - Ext.fin ((i + 1 : K) * logp j)) size c ord

end

/-! ### Kernels -/

section
variable {d : ℕ}

/-- The methods of a kernel object, with values that need not be numbers. -/
structure KSemX (d : ℕ) where
  compute : Vec d → Vec d → Ext ℝ
  gradX : Vec d → Vec d → Fin d → Ext ℝ
  gradY : Vec d → Vec d → Fin d → Ext ℝ
  div : Vec d → Vec d → Ext ℝ

/-- Kernels in whose methods nothing is divided by something that can be zero.  (Exception: a rational quadratic kernel with
`relative_weighting == 0`, which `__check_init__` admits; its values are not modelled here.  The same holds for a periodic
kernel with `periodicity == 0` below.) -/
def KSem.toX (k : KSem d) : KSemX d where
  compute x y := .fin (k.compute x y)
  gradX x y i := .fin (k.gradX x y i)
  gradY x y i := .fin (k.gradY x y i)
  div x y := .fin (k.div x y)

/-- `c ** e` for an integer exponent (`NaN ** 0 == 1`). -/
noncomputable def extPow : Ext ℝ → ℤ → Ext ℝ
  | .nan, e => if e = 0 then .fin 1 else .nan
  | .fin c, e => extZpow c e
  | .pinf, e => if e = 0 then .fin 1 else if 0 < e then .pinf else .fin 0
  | .ninf, e => if e = 0 then .fin 1 else if 0 < e then (if Even e then .pinf else .ninf) else .fin 0

/-- `ExponentialKernel`, dividing by the distance; `/repo/coreax/kernels/scalar_valued.py:165-195`. -/
noncomputable def exponentialX (l s : ℝ) : KSemX d :=
  let gy : Vec d → Vec d → Fin d → Ext ℝ := fun x y i =>
    let dist := nrm x y
    let factor := 2 * l ^ 2
    .fin (s * (x i - y i) * Real.exp (-dist / factor)) / .fin (factor * dist)
  { compute := fun x y => .fin (s * Real.exp (-nrm x y / (2 * l ^ 2)))
    gradX := fun x y i => -gy x y i
    gradY := gy
    div := fun x y =>
      let dist := nrm x y
      let factor := 2 * l ^ 2
      let e := Real.exp (-dist / factor)
      let first : Fin d → Ext ℝ := fun i => (.fin (-e * (x i - y i)) / .fin (dist ^ 2)) * (.fin 1 / .fin dist + .fin (1 / factor))
      let second : Ext ℝ := .fin e / .fin dist
      .fin (s / factor) * ((∑ i, first i * .fin (x i - y i)) + .fin (d : ℝ) * second) }

/-- `PeriodicKernel`, dividing by the distance; `/repo/coreax/kernels/scalar_valued.py:556-613`. -/
noncomputable def periodicX (l s p : ℝ) : KSemX d :=
  let gy : Vec d → Vec d → Fin d → Ext ℝ := fun x y i =>
    let dist := nrm x y
    let body := Real.pi * dist / p
    (.fin (4 * (x i - y i) * s * Real.pi) / .fin (dist * p * l ^ 2)) * .fin (Real.sin body) * .fin (Real.cos body)
      * .fin (Real.exp (-(2 / l ^ 2) * Real.sin body ^ 2))
  { compute := fun x y => .fin (s * Real.exp (-2 * Real.sin (Real.pi * nrm x y / p) ^ 2 / l ^ 2))
    gradX := fun x y i => -gy x y i
    gradY := gy
    div := fun x y =>
      let dist := nrm x y
      let factor := Real.pi / p
      let body := factor * dist
      let outputFactor := 4 * factor * s / l ^ 2
      let f1 : Ext ℝ := .fin 1 / .fin dist
      let f2 := Real.sin body
      let f3 := Real.cos body
      let f4 := Real.exp (-(2 / l ^ 2) * f2 ^ 2)
      let first := f1 * .fin f2 * .fin f3 * .fin f4
      let second : Fin d → Ext ℝ := fun i =>
        let g : Ext ℝ := .fin (x i - y i) / .fin dist;
        -g * (f1 * f1) * .fin f2 * .fin f3 * .fin f4 - g * .fin factor * f1 * .fin (f2 ^ 2) * .fin f4
          + g * .fin factor * f1 * .fin (f3 ^ 2) * .fin f4
          - .fin (outputFactor * (x i - y i)) * (f1 * f1) * .fin (f2 ^ 2) * .fin (f3 ^ 2) * .fin f4
      .fin outputFactor * (.fin (d : ℝ) * first + ∑ i, second i * .fin (x i - y i)) }

/-- The Matérn kernel as a function of the distance; `/repo/coreax/kernels/scalar_valued.py:481-522`. -/
noncomputable def maternProfile (l s : ℝ) (p : ℕ) (r : ℝ) : ℝ :=
  let body := Real.sqrt (2 * p + 1) * r / l
  let factor := s ^ 2 * Real.exp (-body) * p.factorial / (2 * p).factorial
  let summation : ℝ :=
    if 0 < p then
      ∑ i ∈ Finset.range (p + 1),
        ((p + i).factorial : ℝ) / (i.factorial * (p - i).factorial) * (2 * body) ^ (p - i)
    else 1
  factor * summation

/-- `MaternKernel` with the derivatives of the base class; `/repo/coreax/kernels/base.py:295, 328, 389-390`,
`/repo/coreax/kernels/scalar_valued.py:481-522`.  `jnp.linalg.norm` is the square root of a sum of squares; automatic
differentiation divides by twice the root and multiplies by the derivatives of the squares (and differentiates this
quotient once more for the divergence).  The derivatives of the smooth function of the distance are taken to be exact. -/
noncomputable def maternX (l s : ℝ) (p : ℕ) : KSemX d :=
  let ρ := maternProfile l s p
  let outer : ℝ → Ext ℝ := fun r => .fin (deriv ρ r) / .fin (2 * r)
  let outer' : ℝ → Ext ℝ := fun r => .fin (deriv (deriv ρ) r) / .fin (2 * r * (2 * r)) - .fin (deriv ρ r) / .fin (2 * r ^ 2 * (2 * r))
  { compute := fun x y => .fin (maternCompute l s p x y)
    gradX := fun x y i => outer (nrm x y) * .fin (2 * (x i - y i))
    gradY := fun x y i => outer (nrm x y) * .fin (-(2 * (x i - y i)))
    div := fun x y => ∑ i, (outer' (nrm x y) * .fin (2 * (x i - y i)) * .fin (-(2 * (x i - y i))) + outer (nrm x y) * .fin (-2)) }

/-- `PowerKernel`; `/repo/coreax/kernels/base.py:663-699`. -/
noncomputable def powerX (k : KSemX d) (n : ℤ) : KSemX d where
  compute x y := extPow (k.compute x y) n
  gradX x y := fun i => .fin (n : ℝ) * k.gradX x y i * extPow (k.compute x y) (n - 1)
  gradY x y := fun i => .fin (n : ℝ) * k.gradY x y i * extPow (k.compute x y) (n - 1)
  div x y :=
    let c := k.compute x y
    .fin (n : ℝ) * (extPow c (n - 1) * k.div x y + .fin ((n - 1 : ℤ) : ℝ) * extPow c (n - 2) * ∑ i, k.gradX x y i * k.gradY x y i)

/-- `AdditiveKernel`; `/repo/coreax/kernels/base.py:738-760`. -/
noncomputable def addX (a b : KSemX d) : KSemX d where
  compute x y := a.compute x y + b.compute x y
  gradX x y := fun i => a.gradX x y i + b.gradX x y i
  gradY x y := fun i => a.gradY x y i + b.gradY x y i
  div x y := a.div x y + b.div x y

/-- `ProductKernel`; `/repo/coreax/kernels/base.py:776-837`. -/
noncomputable def mulX (eq : Bool) (a b : KSemX d) : KSemX d where
  compute x y := if eq then extPow (a.compute x y) 2 else a.compute x y * b.compute x y
  gradX x y := fun i =>
    if eq then .fin 2 * a.gradX x y i * a.compute x y
    else a.gradX x y i * b.compute x y + b.gradX x y i * a.compute x y
  gradY x y := fun i =>
    if eq then .fin 2 * a.gradY x y i * a.compute x y
    else a.gradY x y i * b.compute x y + b.gradY x y i * a.compute x y
  div x y :=
    if eq then .fin 2 * ((∑ i, a.gradX x y i * a.gradY x y i) + a.compute x y * a.div x y)
    else (∑ i, a.gradX x y i * b.gradY x y i) + (∑ i, a.gradY x y i * b.gradX x y i) + a.compute x y * b.div x y
      + b.compute x y * a.div x y

/-- `SteinKernel.compute_elementwise`; `/repo/coreax/kernels/scalar_valued.py:782-790`. -/
noncomputable def steinComputeX (k : KSemX d) (score : Vec d → Vec d) (x y : Vec d) : Ext ℝ :=
  k.div x y + (∑ i, k.gradX x y i * .fin (score y i)) + (∑ i, k.gradY x y i * .fin (score x i))
    + ∑ i, k.compute x y * .fin (score x i) * .fin (score y i)

open Classical in
/-- The methods of a kernel object.  The automatic derivatives of Stein kernels (needed only for Stein kernels of Stein
kernels) are taken to be the real ones. -/
noncomputable def KExpr.semX : KExpr d → KSemX d
  | .exponential l s => exponentialX l s
  | .periodic l s p => periodicX l s p
  | .matern l s n => maternX l s n.toInt.toNat
  | .power k n => powerX k.semX n.toInt
  | .add a b => addX a.semX b.semX
  | .mul a b => mulX (decide (a = b)) a.semX b.semX
  | .stein k score => { (KExpr.stein k score).sem.toX with compute := steinComputeX k.semX score }
  | .const c => (KExpr.const c).sem.toX
  | .linear s c => (KExpr.linear s c).sem.toX
  | .polynomial s c n => (KExpr.polynomial s c n).sem.toX
  | .laplacian l s => (KExpr.laplacian l s).sem.toX
  | .squaredExponential l s => (KExpr.squaredExponential l s).sem.toX
  | .pcimq l s => (KExpr.pcimq l s).sem.toX
  | .rationalQuadratic l s a => (KExpr.rationalQuadratic l s a).sem.toX
  | .poisson r s => (KExpr.poisson r s).sem.toX

end

end Coreax
