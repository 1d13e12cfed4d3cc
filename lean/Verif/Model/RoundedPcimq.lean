import Verif.Model.RoundedKSD
import Verif.Model.Kernel

/-!
# The PCIMQ kernel and its Stein kernel with rounded arithmetic

`PCIMQKernel` (`/repo/coreax/kernels/scalar_valued.py:343-371`) and `SteinKernel.compute_elementwise` (`/repo/coreax/kernels/scalar_valued.py:782-790`) operation by
operation. `num` turns an integer into a number, `pw n` is `· ** n`. The PCIMQ kernel is the base kernel that `convert_stein_kernel` and Stein thinning put in by default.
-/

namespace Coreax

/-- `squared_distance`; `/repo/coreax/util.py:198-212`. -/
def flSqDist (o : FloatOps ℝ) {d : ℕ} (x y : Vec d) : ℝ := o.dot (fun i => o.sub (x i) (y i)) (fun i => o.sub (x i) (y i))

/-- `2 * self.length_scale**2`; `/repo/coreax/kernels/scalar_valued.py:345, 358, 365`. -/
def flScale (o : FloatOps ℝ) (pw : ℕ → ℝ → ℝ) (l : ℝ) : ℝ := o.mul o.two (pw 2 l)

/-- `compute_elementwise`; `/repo/coreax/kernels/scalar_valued.py:344-347`. (The argument of the root is positive; `o.root` clips at zero first.) -/
def flPcimq (o : FloatOps ℝ) (pw : ℕ → ℝ → ℝ) (l s : ℝ) {d : ℕ} (x y : Vec d) : ℝ :=
  o.div s (o.root (o.add 1 (o.div (flSqDist o x y) (flScale o pw l))))

/-- `grad_y_elementwise`; `/repo/coreax/kernels/scalar_valued.py:354-360`. -/
def flPcimqGradY (o : FloatOps ℝ) (pw : ℕ → ℝ → ℝ) (l s : ℝ) {d : ℕ} (x y : Vec d) : Vec d := fun i =>
  o.mul (o.div (o.mul s (o.sub (x i) (y i))) (flScale o pw l)) (pw 3 (o.div (flPcimq o pw l s x y) s))

/-- `grad_x_elementwise`; `/repo/coreax/kernels/scalar_valued.py:350-351`. (Changing the sign is exact.) -/
def flPcimqGradX (o : FloatOps ℝ) (pw : ℕ → ℝ → ℝ) (l s : ℝ) {d : ℕ} (x y : Vec d) : Vec d := fun i => -flPcimqGradY o pw l s x y i

/-- `divergence_x_grad_y_elementwise`; `/repo/coreax/kernels/scalar_valued.py:363-371`. -/
def flPcimqDiv (o : FloatOps ℝ) (num : ℕ → ℝ) (pw : ℕ → ℝ → ℝ) (l s : ℝ) {d : ℕ} (x y : Vec d) : ℝ :=
  let k := o.div (flPcimq o pw l s x y) s
  let scale := flScale o pw l
  o.mul (o.div s scale) (o.sub (o.mul (num d) (pw 3 k)) (o.div (o.mul (o.mul 3 (pw 5 k)) (flSqDist o x y)) scale))

/-- `SteinKernel.compute_elementwise`; `/repo/coreax/kernels/scalar_valued.py:782-790`, on a PCIMQ kernel. `k * score_x @ score_y` is `(k * score_x) @ score_y`. -/
def flSteinPcimq (o : FloatOps ℝ) (num : ℕ → ℝ) (pw : ℕ → ℝ → ℝ) (l s : ℝ) {d : ℕ} (score : Vec d → Vec d) (x y : Vec d) : ℝ :=
  o.add (o.add (o.add (flPcimqDiv o num pw l s x y) (o.dot (flPcimqGradX o pw l s x y) (score y))) (o.dot (flPcimqGradY o pw l s x y) (score x)))
    (o.dot (fun i => o.mul (flPcimq o pw l s x y) (score x i)) (score y))

end Coreax
