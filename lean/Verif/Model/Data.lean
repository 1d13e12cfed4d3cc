import Verif.Model.Basic

/-!
# Model of `coreax/data.py`

Two layers: `NdArray` (dynamic shapes, used for the constructors and their error branches) and `Data`/`SupData`
(static leading length `n`, used by everything downstream).
-/

namespace Coreax

/-- An array of dynamic shape with its entries in row-major order. -/
structure NdArray (α : Type*) where
  shape : List ℕ
  flat : List α
  size_eq : flat.length = shape.prod

namespace NdArray
variable {α : Type*}

/-- `len(a.shape)`. -/
def ndim (a : NdArray α) : ℕ := a.shape.length

/-- A Python/JAX scalar as a 0-d array. -/
def scalar (c : α) : NdArray α := ⟨[], [c], by simp⟩

/-- A 1-d array. -/
def vector (l : List α) : NdArray α := ⟨[l.length], l, by simp⟩

end NdArray

/-- `_atleast_2d_consistent` on one array; `/repo/coreax/data.py:66-106`.
1-d arrays get a trailing axis (`expand_dims(array, 1)`, line 105); everything else goes through
`jnp.array(array, ndmin=2)` (line 106), which prepends axes to a 0-d array and leaves rank ≥ 2 unchanged. -/
def atleast2d {α : Type*} (a : NdArray α) : NdArray α :=
  match h : a.shape with
  | [] => ⟨[1, 1], a.flat, by simp [a.size_eq, h]⟩
  | [n] => ⟨[n, 1], a.flat, by simp [a.size_eq, h]⟩
  | _ :: _ :: _ => a

/-- `jnp.broadcast_to(w, n)` (target shape `(n,)`) for `/repo/coreax/data.py:156`.  NumPy rule: the rank may not
exceed the target rank, and the trailing axis must be `1` or `n`. -/
def broadcastTo1 {α : Type*} (w : NdArray α) (n : ℕ) : Except Err (List α) :=
  match w.shape with
  | [] => match w.flat with
      | c :: _ => .ok (List.replicate n c)
      | [] => .error .valueError
  | [s] =>
      if s = n then .ok w.flat
      else if s = 1 then match w.flat with
        | c :: _ => .ok (List.replicate n c)
        | [] => .error .valueError
      else .error .valueError
  | _ :: _ :: _ => .error .valueError

/-- A constructed `Data` object: rank ≥ 2 data and a 1-d weight vector. -/
structure DataObj (α : Type*) where
  data : NdArray α
  weights : List α

/-- `Data.__init__`; `/repo/coreax/data.py:148-156`.  `n = self.data.shape[0]`. -/
def DataObj.init {α : Type*} [One α] (data : NdArray α) (weights : Option (NdArray α)) :
    Except Err (DataObj α) :=
  let d := atleast2d data
  let n := d.shape.headD 0
  match broadcastTo1 (weights.getD (NdArray.scalar 1)) n with
  | .ok w => .ok ⟨d, w⟩
  | .error e => .error e

/-- `len(Data)`; `/repo/coreax/data.py:188-190`. -/
def DataObj.len {α : Type*} (d : DataObj α) : ℕ := d.data.shape.headD 0

/-- A constructed `SupervisedData` object. -/
structure SupObj (α : Type*) extends DataObj α where
  supervision : NdArray α

/-- `SupervisedData.__init__` followed by `__check_init__`; `/repo/coreax/data.py:242-257`.  The field converter
(line 240) makes the supervision rank ≥ 2. -/
def SupObj.init {α : Type*} [One α] (data sup : NdArray α) (weights : Option (NdArray α)) :
    Except Err (SupObj α) :=
  match DataObj.init data weights with
  | .error e => .error e
  | .ok d =>
    let s := atleast2d sup
    if s.shape.headD 0 ≠ d.data.shape.headD 0 then .error .valueError
    else .ok { d with supervision := s }

/-- `as_data` on an array or an existing object; `/repo/coreax/data.py:260-262`. -/
def asData {α : Type*} [One α] : NdArray α ⊕ DataObj α → Except Err (DataObj α)
  | .inl a => DataObj.init a none
  | .inr d => .ok d

/-- `as_supervised_data` on a pair of arrays or an existing object; `/repo/coreax/data.py:265-269`. -/
def asSupervisedData {α : Type*} [One α] :
    (NdArray α × NdArray α) ⊕ SupObj α → Except Err (SupObj α)
  | .inl (x, y) => SupObj.init x y none
  | .inr d => .ok d

/-! ### Static layer -/

/-- A weighted dataset with `n` rows of type `X`; `/repo/coreax/data.py:117-156`. -/
@[ext] structure Data (n : ℕ) (X K : Type*) where
  data : Fin n → X
  weights : Fin n → K

/-- A supervised dataset; `/repo/coreax/data.py:216-257`. -/
@[ext] structure SupData (n : ℕ) (X Y K : Type*) extends Data n X K where
  supervision : Fin n → Y

/-- `Data.__getitem__` with an index array; `/repo/coreax/data.py:158-160` (every leaf is indexed). -/
def Data.getItem {n m : ℕ} [NeZero n] {X K : Type*} (d : Data n X K) (key : Fin m → ℤ) : Data m X K where
  data t := d.data (gatherIdx n (key t))
  weights t := d.weights (gatherIdx n (key t))

/-- `SupervisedData.__getitem__` with an index array; `/repo/coreax/data.py:158-160`. -/
def SupData.getItem {n m : ℕ} [NeZero n] {X Y K : Type*} (d : SupData n X Y K) (key : Fin m → ℤ) :
    SupData m X Y K where
  data t := d.data (gatherIdx n (key t))
  weights t := d.weights (gatherIdx n (key t))
  supervision t := d.supervision (gatherIdx n (key t))

/-- `SupervisedData.__jax_array__` on `d`- and `p`-dimensional rows: `hstack`; `/repo/coreax/data.py:172-186`. -/
def SupData.asArray {n d p : ℕ} {K : Type*} (s : SupData n (Fin d → K) (Fin p → K) K) :
    Fin n → Fin (d + p) → K :=
  fun i => Fin.append (s.data i) (s.supervision i)

section Normalize
variable {n : ℕ} {X K : Type*} [Field K] [LinearOrder K]

/-- The float division `self.weights / jnp.sum(self.weights)`; `/repo/coreax/data.py:210`. -/
def normWeights (w : Fin n → K) : Fin n → Ext K :=
  fun i => Ext.fin (w i) / Ext.fin (∑ j, w j)

/-- `normalize(preserve_zeros=False)`; `/repo/coreax/data.py:202-213`. -/
def Data.normalize (d : Data n X K) : Data n X (Ext K) := ⟨d.data, normWeights d.weights⟩

/-- Weights of `normalize(preserve_zeros=True)`; `/repo/coreax/data.py:211-212`.  `big` is the largest float. -/
def normWeightsPZ (big : K) (w : Fin n → K) : Fin n → K := fun i => (normWeights w i).nanToNum big

/-- `normalize(preserve_zeros=True)`; `/repo/coreax/data.py:202-213`. -/
def Data.normalizePZ (big : K) (d : Data n X K) : Data n X K := ⟨d.data, normWeightsPZ big d.weights⟩

/-- `SupervisedData.normalize(preserve_zeros=True)`: only the weights leaf is replaced;
`/repo/coreax/data.py:202-213`. -/
def SupData.normalizePZ {Y : Type*} (big : K) (d : SupData n X Y K) : SupData n X Y K :=
  { d with weights := normWeightsPZ big d.weights }

end Normalize

end Coreax
