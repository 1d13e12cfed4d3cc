import Verif.Model.Mean

/-!
# The arrays that the blocked kernel mean makes

`/repo/coreax/kernels/base.py` (`compute_mean`) again, now with a record of the arrays that appear on the way: the kernel matrices of the blocks, and the arrays in which `lax.scan` collects the
outputs of its steps.  (The compiler may drop arrays that are not used in the end; that is not modelled.)
-/

namespace Coreax

/-- An array made on the way: the kernel matrix of some rows and some columns, or the collected outputs of a scan (number of steps, length of each output). -/
inductive ArrayEvent (X : Type*)
  | matrix (rows cols : List X)
  | stack (steps len : ℕ)

section
variable {X K : Type*} [Zero X] [Field K] [LinearOrder K]

/-- `self.compute(x_, y_)`; `/repo/coreax/kernels/base.py:573`: the matrix, and the record of it. -/
def blockCompute (k : X → X → K) {Bx By : ℕ} (xb : Fin Bx → X × K) (yb : Fin By → X × K) : (Fin Bx → Fin By → K) × ArrayEvent X :=
  (fun r c => k (xb r).1 (yb c).1, .matrix (List.ofFn fun r => (xb r).1) (List.ofFn fun c => (yb c).1))

/-- `slice_sum`; `/repo/coreax/kernels/base.py:567-575`. -/
def sliceSumTrace (k : X → X → K) {Bx By : ℕ} (xb : Fin Bx → X × K) (s : K × List (ArrayEvent X)) (yb : Fin By → X × K) :
    (K × List (ArrayEvent X)) × (Fin Bx → K) :=
  let (matrix, event) := blockCompute k xb yb
  let column : Fin Bx → K := fun r => ∑ c, matrix r c * (yb c).2
  ((s.1 + ∑ r, (xb r).2 * column r, s.2 ++ [event]), column)

/-- `block_sum`; `/repo/coreax/kernels/base.py:562-580`: the outputs of the inner scan are collected (line 577), then summed (line 580). -/
def blockSumTrace (k : X → X → K) {Bx By : ℕ} (blocksY : List (Fin By → X × K)) (s : K × List (ArrayEvent X))
    (xb : Fin Bx → X × K) : (K × List (ArrayEvent X)) × (Fin Bx → K) :=
  let r := scan (sliceSumTrace k xb) s blocksY
  ((r.1.1, r.1.2 ++ [.stack r.2.length Bx]), fun i => (r.2.map (fun c => c i)).sum)

/-- The double scan; `/repo/coreax/kernels/base.py:555-589`. -/
def columnMeanTrace (big : K) (k : X → X → K) {n m : ℕ} (x : Data n X K) (y : Data m X K) (bx «by» : Option ℤ) :
    Except Err ((K × List K) × List (ArrayEvent X)) :=
  match blockDataConvert big x bx with
  | .error e => .error e
  | .ok ⟨Bx, blocksX⟩ =>
    match blockDataConvert big y «by» with
    | .error e => .error e
    | .ok ⟨_, blocksY⟩ =>
      let r := scan (blockSumTrace k blocksY) (0, []) blocksX
      let padded := (r.2.map List.ofFn).flatten
      .ok ((r.1.1, padded.take n), r.1.2 ++ [.stack r.2.length Bx])

/-- `compute_mean`; `/repo/coreax/kernels/base.py:480-589`. -/
def computeMeanTrace (big : K) (k : X → X → K) {n m : ℕ} (x : Data n X K) (y : Data m X K) (axis : Axis)
    (blockSize : PyTree (Option ℤ)) : Except Err (List K × List (ArrayEvent X)) :=
  match treeLeavesRepeat blockSize 2 with
  | [bx, «by»] =>
    match axis with
    | .zero => match columnMeanTrace big k y x «by» bx with
      | .ok r => .ok (r.1.2, r.2)
      | .error e => .error e
    | .one => match columnMeanTrace big k x y bx «by» with
      | .ok r => .ok (r.1.2, r.2)
      | .error e => .error e
    | .none => match columnMeanTrace big k x y bx «by» with
      | .ok r => .ok ([r.1.1], r.2)
      | .error e => .error e
  | _ => .error .valueError

end

end Coreax
