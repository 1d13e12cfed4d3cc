import Verif.Model.Metrics

/-!
# Blocked kernel means and the MMD with rounded arithmetic

The program of `Verif.Model.Mean` once more, with the arithmetic operations as parameters, as in
`/repo/coreax/kernels/base.py` (`compute_mean`), `/repo/coreax/kernels/util.py` (`_block_data_convert`), `/repo/coreax/data.py` (`normalize`) and
`/repo/coreax/metrics.py` (`MMD.compute`). The numbers have an arbitrary type `F`. Sums over an axis and dot products are single
operations, since the order in which XLA evaluates them is not fixed by the program.

Simplification: `jnp.nan_to_num` in `normalize` is left out; it acts on NaN and infinities only.
-/

namespace Coreax

/-- The operations of the arithmetic: constants, `+`, `-`, `*`, `/`, `jnp.sum` along an axis, the matrix-vector product and the dot product `jnp.dot`,
and `jnp.sqrt(jnp.maximum(0.0, ·))`. -/
structure FloatOps (F : Type*) where
  zero : F
  two : F
  add : F → F → F
  sub : F → F → F
  mul : F → F → F
  div : F → F → F
  sum : ∀ {n : ℕ}, (Fin n → F) → F
  matvec : ∀ {a b : ℕ}, (Fin a → Fin b → F) → (Fin b → F) → Fin a → F
  dot : ∀ {n : ℕ}, (Fin n → F) → (Fin n → F) → F
  root : F → F

section
variable {X F : Type*} [Zero X]

/-- `self.weights / jnp.sum(self.weights)`; `/repo/coreax/data.py:210`. -/
def flNormalize (o : FloatOps F) {n : ℕ} (d : Data n X F) : Data n X F := ⟨d.data, fun i => o.div (d.weights i) (o.sum d.weights)⟩

/-- Row `j` of the zero-padded data and weights; `/repo/coreax/kernels/util.py:36`. -/
def flPaddedRow (o : FloatOps F) {n : ℕ} (d : Data n X F) (j : ℕ) : X × F :=
  if h : j < n then (d.data ⟨j, h⟩, d.weights ⟨j, h⟩) else (0, o.zero)

/-- `_block_data_convert`; `/repo/coreax/kernels/util.py:29-47`. -/
def flBlockConvert (o : FloatOps F) {n : ℕ} (d : Data n X F) (b : Option ℤ) : Except Err ((B : ℕ) × List (Fin B → X × F)) :=
  let B := effBlock n b
  if B = 0 then .error .zeroDivisionError
  else .ok ⟨B, (List.range (numBlocks n B)).map (fun blk r => flPaddedRow o (flNormalize o d) (blk * B + r))⟩

/-- `slice_sum`; `/repo/coreax/kernels/base.py:567-575`. -/
def flSliceSum (o : FloatOps F) (k : X → X → F) {Bx By : ℕ} (xb : Fin Bx → X × F) (acc : F) (yb : Fin By → X × F) : F × (Fin Bx → F) :=
  let column : Fin Bx → F := o.matvec (fun r c => k (xb r).1 (yb c).1) (fun c => (yb c).2)
  (o.add acc (o.dot (fun r => (xb r).2) column), column)

/-- `block_sum`; `/repo/coreax/kernels/base.py:562-580`. -/
def flBlockSum (o : FloatOps F) (k : X → X → F) {Bx By : ℕ} (blocksY : List (Fin By → X × F)) (acc : F) (xb : Fin Bx → X × F) : F × (Fin Bx → F) :=
  let r := scan (flSliceSum o k xb) acc blocksY
  (r.1, fun i => o.sum (fun t : Fin r.2.length => r.2.get t i))

/-- The double scan; `/repo/coreax/kernels/base.py:555-589`. (The sum over an axis of length one at the end is the entry itself.) -/
def flColumnMean (o : FloatOps F) (k : X → X → F) {n m : ℕ} (x : Data n X F) (y : Data m X F) (bx «by» : Option ℤ) : Except Err (F × List F) :=
  match flBlockConvert o x bx with
  | .error e => .error e
  | .ok ⟨_, blocksX⟩ =>
    match flBlockConvert o y «by» with
    | .error e => .error e
    | .ok ⟨_, blocksY⟩ =>
      let r := scan (flBlockSum o k blocksY) o.zero blocksX
      .ok (r.1, ((r.2.map List.ofFn).flatten).take n)

/-- `gramian_row_mean`: `compute_mean(x, x, axis=0)`; `/repo/coreax/kernels/base.py:392-415, 543-589`. -/
def flGramianRowMean (o : FloatOps F) (k : X → X → F) {n : ℕ} (x : Data n X F) (bs : PyTree (Option ℤ)) : Except Err (List F) :=
  match treeLeavesRepeat bs 2 with
  | [bx, «by»] =>
    match flColumnMean o k x x «by» bx with
    | .ok r => .ok r.2
    | .error e => .error e
  | _ => .error .valueError

/-- `MMD.compute`; `/repo/coreax/metrics.py:129-140`. The products of the block sizes are `(a, a)`, `(a, b)`, `(b, a)`, `(b, b)`. -/
def flMMD (o : FloatOps F) (k : X → X → F) {n m : ℕ} (x : Data n X F) (y : Data m X F) (bs : PyTree (Option ℤ)) : Except Err F :=
  match treeLeavesRepeat bs 2 with
  | [a, b] =>
    match flColumnMean o k x x a a with
    | .error e => .error e
    | .ok xx =>
      match flColumnMean o k y y b b with
      | .error e => .error e
      | .ok yy =>
        match flColumnMean o k x y a b with
        | .error e => .error e
        | .ok xy => .ok (o.root (o.sub (o.add xx.1 yy.1) (o.mul o.two xy.1)))
  | _ => .error .valueError

end

end Coreax
