import Mathlib.Algebra.Order.Field.Basic
import Mathlib.Algebra.BigOperators.Fin
import Mathlib.Data.List.MinMax
import Mathlib.Data.Fintype.Card
import Mathlib.Data.List.FinRange
import Mathlib.Data.Rat.Defs
import Mathlib.Algebra.Order.Ring.Rat
import Mathlib.Tactic.Ring
import Mathlib.Tactic.Linarith
import Mathlib.Tactic.NormNum
import Mathlib.Tactic.FieldSimp
import Mathlib.Algebra.Order.BigOperators.Group.Finset
import Mathlib.Algebra.Order.BigOperators.Ring.Finset
import Mathlib.Algebra.BigOperators.Field
import Mathlib.Tactic.Positivity
import Mathlib.Tactic.Push
import Mathlib.Tactic.FinCases

/-!
# Primitives shared by all models

Semantics of the JAX/Python features on which `/repo` relies.  None of this is code of `/repo`; it is the
(trusted) reading of JAX that the other modules build upon.

* exceptions as values (`Err`);
* floats with NaN and infinities as control flow (`Ext`);
* gather (clamping) and scatter (dropping) with wrap-around of negative indices;
* `nanargmax`, `nanargmin`, `argmin`;
* `fori_loop`.
-/

namespace Coreax

/-- The Python exceptions that occur in the modelled code. -/
inductive Err
  | valueError
  | typeError
  | zeroDivisionError
  deriving DecidableEq, Repr

/-- A float: an exact number of the field `K`, an infinity or NaN.  Signed zeros and rounding are not modelled. -/
inductive Ext (K : Type*)
  | nan
  | ninf
  | fin (x : K)
  | pinf
  deriving DecidableEq, Repr

namespace Ext

variable {K : Type*}

/-- IEEE addition. -/
def add [Add K] : Ext K → Ext K → Ext K
  | nan, _ => nan
  | _, nan => nan
  | fin x, fin y => fin (x + y)
  | pinf, ninf => nan
  | ninf, pinf => nan
  | pinf, _ => pinf
  | _, pinf => pinf
  | ninf, _ => ninf
  | _, ninf => ninf

/-- IEEE negation. -/
def neg [Neg K] : Ext K → Ext K
  | nan => nan
  | fin x => fin (-x)
  | pinf => ninf
  | ninf => pinf

instance [Add K] : Add (Ext K) := ⟨add⟩
instance [Neg K] : Neg (Ext K) := ⟨neg⟩
/-- IEEE subtraction. -/
instance [Add K] [Neg K] : Sub (Ext K) := ⟨fun x y => x + -y⟩

section Ord
variable [Field K] [LinearOrder K]

/-- `x · (±∞)` for finite `x`; `s` is the infinity (`pinf` or `ninf`). -/
def signMul (x : K) (s : Ext K) : Ext K :=
  if x = 0 then nan else if 0 < x then s else neg s

/-- IEEE multiplication. -/
def mul : Ext K → Ext K → Ext K
  | nan, _ => nan
  | _, nan => nan
  | fin x, fin y => fin (x * y)
  | fin x, pinf => signMul x pinf
  | fin x, ninf => signMul x ninf
  | pinf, fin y => signMul y pinf
  | ninf, fin y => signMul y ninf
  | pinf, pinf => pinf
  | ninf, ninf => pinf
  | pinf, ninf => ninf
  | ninf, pinf => ninf

/-- IEEE division (a zero divisor counts as `+0`). -/
def div : Ext K → Ext K → Ext K
  | nan, _ => nan
  | _, nan => nan
  | fin x, fin y =>
      if y = 0 then (if x = 0 then nan else if 0 < x then pinf else ninf) else fin (x / y)
  | fin _, pinf => fin 0
  | fin _, ninf => fin 0
  | pinf, fin y => if 0 ≤ y then pinf else ninf
  | ninf, fin y => if 0 ≤ y then ninf else pinf
  | pinf, pinf => nan
  | pinf, ninf => nan
  | ninf, pinf => nan
  | ninf, ninf => nan

instance : Mul (Ext K) := ⟨mul⟩
instance : Div (Ext K) := ⟨div⟩

/-- `x < y` for floats: false as soon as one side is NaN. -/
def lt : Ext K → Ext K → Bool
  | nan, _ => false
  | _, nan => false
  | fin x, fin y => decide (x < y)
  | ninf, ninf => false
  | ninf, _ => true
  | pinf, _ => false
  | fin _, pinf => true
  | fin _, ninf => false

/-- `jnp.nan_to_num`: NaN to zero, infinities to the largest finite float (`big`). -/
def nanToNum (big : K) : Ext K → K
  | nan => 0
  | ninf => -big
  | fin x => x
  | pinf => big

/-- `jnp.maximum(0, x)`: NaN is propagated. -/
def max0 : Ext K → Ext K
  | nan => nan
  | ninf => fin 0
  | fin x => fin (max 0 x)
  | pinf => pinf

end Ord

/-- `jnp.isnan`. -/
def isNan : Ext K → Bool
  | nan => true
  | _ => false

/-- Is the float a (finite) number? -/
def isFin : Ext K → Bool
  | fin _ => true
  | _ => false

/-- Order key used by `nanargmax`: NaN is replaced by `-inf`. -/
def keyMax : Ext K → WithBot (WithTop K)
  | nan => ⊥
  | ninf => ⊥
  | fin x => ((x : WithTop K) : WithBot (WithTop K))
  | pinf => ((⊤ : WithTop K) : WithBot (WithTop K))

/-- Order key used by `nanargmin`: NaN is replaced by `+inf`. -/
def keyMin : Ext K → WithBot (WithTop K)
  | nan => ((⊤ : WithTop K) : WithBot (WithTop K))
  | ninf => ⊥
  | fin x => ((x : WithTop K) : WithBot (WithTop K))
  | pinf => ((⊤ : WithTop K) : WithBot (WithTop K))

end Ext

section Arg
variable {K : Type*} [LinearOrder K]

/-- `jnp.nanargmax`: first index of a maximum after replacing NaN by `-inf`; `-1` if everything is NaN.
(On an empty array JAX raises; callers have `n > 0`, the model returns `-1`.) -/
def nanargmax {n : ℕ} (f : Fin n → Ext K) : ℤ :=
  if ∀ i, f i = Ext.nan then -1
  else match (List.finRange n).argmax (fun i => (f i).keyMax) with
    | some i => (i : ℤ)
    | none => -1

/-- `jnp.nanargmin`: first index of a minimum after replacing NaN by `+inf`; `-1` if everything is NaN. -/
def nanargmin {n : ℕ} (f : Fin n → Ext K) : ℤ :=
  if ∀ i, f i = Ext.nan then -1
  else match (List.finRange n).argmin (fun i => (f i).keyMin) with
    | some i => (i : ℤ)
    | none => -1

end Arg

/-- Row addressed by a JAX *gather* with index `i` on a leading axis of length `n`: a negative index wraps
around once, then the index is clamped to the valid range. -/
def gatherIdx (n : ℕ) [NeZero n] (i : ℤ) : Fin n :=
  let j := if i < 0 then i + n else i
  ⟨min j.toNat (n - 1), by have := NeZero.pos n; omega⟩

/-- Row addressed by a JAX *scatter* with index `i`: a negative index wraps around once, an out-of-range
index is dropped. -/
def scatterIdx (n : ℕ) (i : ℤ) : Option (Fin n) :=
  let j := if i < 0 then i + n else i
  if h : 0 ≤ j ∧ j < n then some ⟨j.toNat, by omega⟩ else none

/-- `a.at[idx].set(vals)`.  JAX leaves the order of conflicting writes undefined; `ord` is the order in which
the writes happen (a parameter, so that theorems hold for every order). -/
def scatterSet {n m : ℕ} {α : Type*} (ord : List (Fin m)) (a : Fin n → α) (idx : Fin m → ℤ)
    (vals : Fin m → α) : Fin n → α :=
  ord.foldl (fun a t => match scatterIdx n (idx t) with
    | some j => Function.update a j (vals t)
    | none => a) a

/-- `a.at[i].set(v)`. -/
def setAt {n : ℕ} {α : Type*} (a : Fin n → α) (i : ℤ) (v : α) : Fin n → α :=
  match scatterIdx n i with
  | some j => Function.update a j v
  | none => a

/-- `jax.lax.fori_loop(0, t, body, init)`. -/
def forLoop {σ : Type*} : (t : ℕ) → (Fin t → σ → σ) → σ → σ
  | 0, _, s => s
  | t + 1, f, s => f (Fin.last t) (forLoop t (fun i => f i.castSucc) s)

end Coreax
