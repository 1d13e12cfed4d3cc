import Verif.Model.Kernel
import Verif.Model.Thinning
import Verif.Lemmas.Thinning
import Mathlib.Analysis.SpecialFunctions.Gaussian.GaussianIntegral
import Mathlib.MeasureTheory.Integral.Pi

/-!
# C56: the square-root kernel, and what it is for

`KernelThinning` halves with a square-root kernel.  `SquaredExponentialKernel.get_sqrt_kernel` offers one.
-/

namespace Coreax

open MeasureTheory

namespace Spec

/-- Definition 5 of Dwivedi and Mackey, to which the code refers: `k(x, y) = ∫ r(x, z) r(y, z) dz`. -/
def IsSquareRoot {d : ℕ} (r k : Vec d → Vec d → ℝ) : Prop := ∀ x y, ∫ z : Vec d, r x z * r y z = k x y

end Spec

open Spec

/-! ### The square root -/

/-- One coordinate: the product of two Gaussian factors. -/
theorem integral_gauss_pair (l : ℝ) (hl : 0 < l) (a b : ℝ) :
    ∫ z : ℝ, Real.exp (-((a - z) ^ 2 + (b - z) ^ 2) / l ^ 2) = Real.sqrt (Real.pi * l ^ 2 / 2) * Real.exp (-(a - b) ^ 2 / (2 * l ^ 2)) := by
  have h : ∀ z : ℝ, Real.exp (-((a - z) ^ 2 + (b - z) ^ 2) / l ^ 2)
      = Real.exp (-(2 / l ^ 2) * (z - (a + b) / 2) ^ 2) * Real.exp (-(a - b) ^ 2 / (2 * l ^ 2)) := by
    intro z
    rw [← Real.exp_add]
    congr 1
    field_simp
    ring
  simp only [h]
  rw [integral_mul_const, integral_sub_right_eq_self (fun z => Real.exp (-(2 / l ^ 2) * z ^ 2)), integral_gaussian]
  congr 2
  field_simp

theorem integral_gauss_pair_vec {d : ℕ} (l : ℝ) (hl : 0 < l) (x y : Vec d) :
    ∫ z : Vec d, Real.exp (-(sqDist x z + sqDist y z) / l ^ 2)
      = Real.sqrt (Real.pi * l ^ 2 / 2) ^ d * Real.exp (-sqDist x y / (2 * l ^ 2)) := by
  have h : ∀ z : Vec d, Real.exp (-(sqDist x z + sqDist y z) / l ^ 2)
      = ∏ i, Real.exp (-((x i - z i) ^ 2 + (y i - z i) ^ 2) / l ^ 2) := by
    intro z
    rw [← Real.exp_sum]
    congr 1
    rw [← Finset.sum_div, Finset.sum_neg_distrib, Finset.sum_add_distrib]
    simp [sqDist, vdot, pow_two]
  simp only [h]
  rw [integral_fintype_prod_volume_eq_prod (fun (i : Fin d) (z : ℝ) => Real.exp (-((x i - z) ^ 2 + (y i - z) ^ 2) / l ^ 2))]
  simp only [integral_gauss_pair l hl, Finset.prod_mul_distrib, Finset.prod_const, Finset.card_univ, Fintype.card_fin]
  congr 1
  rw [← Real.exp_sum, ← Finset.sum_div, Finset.sum_neg_distrib]
  simp [sqDist, vdot, pow_two]

theorem sqrtKernel_compute {d : ℕ} (l s : ℝ) (hl : 0 < l) (dim : ℕ) (x z : Vec d) :
    (sqrtKernel l s dim : KExpr d).sem.compute x z
      = Real.sqrt s * (2 / (Real.pi * l ^ 2)) ^ ((dim : ℝ) / 4) * Real.exp (-sqDist x z / l ^ 2) := by
  simp only [sqrtKernel, KExpr.sem, squaredExponentialSem]
  congr 2
  rw [div_pow, Real.sq_sqrt (by norm_num)]
  field_simp

/-- The general value of the integral, for data of dimension `d` and a kernel built for dimension `dim`. -/
theorem sqrtKernel_integral {d : ℕ} (l s : ℝ) (hl : 0 < l) (hs : 0 < s) (dim : ℕ) (x y : Vec d) :
    ∫ z : Vec d, (sqrtKernel l s dim : KExpr d).sem.compute x z * (sqrtKernel l s dim : KExpr d).sem.compute y z
      = (2 / (Real.pi * l ^ 2)) ^ (((dim : ℝ) - d) / 2) * (KExpr.squaredExponential l s : KExpr d).sem.compute x y := by
  have hq : 0 < 2 / (Real.pi * l ^ 2) := by positivity
  have h : ∀ z : Vec d, (sqrtKernel l s dim : KExpr d).sem.compute x z * (sqrtKernel l s dim : KExpr d).sem.compute y z
      = (s * (2 / (Real.pi * l ^ 2)) ^ ((dim : ℝ) / 2)) * Real.exp (-(sqDist x z + sqDist y z) / l ^ 2) := by
    intro z
    rw [sqrtKernel_compute l s hl, sqrtKernel_compute l s hl]
    have h1 : Real.exp (-(sqDist x z + sqDist y z) / l ^ 2) = Real.exp (-sqDist x z / l ^ 2) * Real.exp (-sqDist y z / l ^ 2) := by
      rw [← Real.exp_add]; congr 1; ring
    have h2 : (2 / (Real.pi * l ^ 2)) ^ ((dim : ℝ) / 2) = (2 / (Real.pi * l ^ 2)) ^ ((dim : ℝ) / 4) * (2 / (Real.pi * l ^ 2)) ^ ((dim : ℝ) / 4) := by
      rw [← Real.rpow_add hq]; congr 1; ring
    have h3 : s = Real.sqrt s * Real.sqrt s := (Real.mul_self_sqrt hs.le).symm
    rw [h1, h2]
    conv_rhs => rw [h3]
    ring
  simp only [h]
  rw [integral_const_mul, integral_gauss_pair_vec l hl]
  have h4 : Real.sqrt (Real.pi * l ^ 2 / 2) ^ d = (2 / (Real.pi * l ^ 2)) ^ (-(d : ℝ) / 2) := by
    rw [Real.sqrt_eq_rpow, ← Real.rpow_natCast, ← Real.rpow_mul (by positivity)]
    rw [show Real.pi * l ^ 2 / 2 = (2 / (Real.pi * l ^ 2))⁻¹ by rw [inv_div], Real.inv_rpow hq.le, ← Real.rpow_neg hq.le]
    congr 1; ring
  have h5 : (2 / (Real.pi * l ^ 2)) ^ (((dim : ℝ) - d) / 2) = (2 / (Real.pi * l ^ 2)) ^ ((dim : ℝ) / 2) * (2 / (Real.pi * l ^ 2)) ^ (-(d : ℝ) / 2) := by
    rw [← Real.rpow_add hq]; congr 1; ring
  rw [h4, h5]
  simp only [KExpr.sem, squaredExponentialSem]
  ring

/-- `get_sqrt_kernel(dim)` is a square root of the kernel on data with `dim` features, for every length and output scale. -/
theorem C56_square_root {d : ℕ} (l s : ℝ) (hl : 0 < l) (hs : 0 < s) :
    IsSquareRoot (sqrtKernel l s d : KExpr d).sem.compute (KExpr.squaredExponential l s : KExpr d).sem.compute := by
  intro x y
  rw [sqrtKernel_integral l s hl hs d x y]
  simp

/-- It is again a valid kernel. -/
theorem C56_valid {d : ℕ} (l s : ℝ) (hl : 0 < l) (hs : 0 < s) (dim : ℕ) : (sqrtKernel l s dim : KExpr d).check = .ok () := by
  have h1 : 0 < l / Real.sqrt 2 := by positivity
  have h2 : 0 < Real.sqrt s * (2 / (Real.pi * l ^ 2)) ^ ((dim : ℝ) / 4) := by positivity
  simp [sqrtKernel, KExpr.check, checkPos, not_le.2 h1, not_le.2 h2, Bind.bind, Except.bind]

/-- With another `dim` than that of the data (nothing checks it) it is not a square root, unless `π l² = 2`: every value is off by the same factor. -/
theorem C56_wrong_dim {d : ℕ} (l s : ℝ) (hl : 0 < l) (hs : 0 < s) (dim : ℕ) :
    IsSquareRoot (sqrtKernel l s dim : KExpr d).sem.compute (KExpr.squaredExponential l s : KExpr d).sem.compute ↔
      dim = d ∨ Real.pi * l ^ 2 = 2 := by
  have hq : 0 < 2 / (Real.pi * l ^ 2) := by positivity
  constructor
  · intro h
    have h0 := h 0 0
    rw [sqrtKernel_integral l s hl hs dim] at h0
    have hk : 0 < (KExpr.squaredExponential l s : KExpr d).sem.compute 0 0 := by
      simp only [KExpr.sem, squaredExponentialSem]; positivity
    have h1 : (2 / (Real.pi * l ^ 2)) ^ (((dim : ℝ) - d) / 2) = 1 := by
      rcases mul_eq_right₀ hk.ne' |>.1 h0 with h
      exact h
    by_cases he : 2 / (Real.pi * l ^ 2) = 1
    · right
      rw [div_eq_one_iff_eq (by positivity)] at he
      exact he.symm
    · left
      have h2 := congrArg Real.log h1
      rw [Real.log_rpow hq, Real.log_one] at h2
      rcases mul_eq_zero.1 h2 with h3 | h3
      · have : (dim : ℝ) = d := by linarith
        exact_mod_cast this
      · rcases Real.log_eq_zero.1 h3 with h | h | h
        · exact absurd h hq.ne'
        · exact absurd h he
        · linarith
  · rintro (rfl | h)
    · exact C56_square_root l s hl hs
    · intro x y
      rw [sqrtKernel_integral l s hl hs dim x y, h]
      norm_num

/-! ### The scale of the square-root kernel does not matter -/

/-- Scaling by a positive number. -/
def Ext.scale (r : ℝ) : Ext ℝ → Ext ℝ
  | .nan => .nan
  | .ninf => .ninf
  | .fin v => .fin (r * v)
  | .pinf => .pinf

namespace Ext

theorem signMul_scale {r : ℝ} (hr : 0 < r) (v : ℝ) (i : Ext ℝ) : signMul (r * v) i = signMul v i := by
  simp only [signMul, mul_eq_zero, hr.ne', false_or, mul_pos_iff_of_pos_left hr]

theorem scale_signMul (r v : ℝ) : scale r (signMul v pinf) = signMul v pinf ∧ scale r (signMul v ninf) = signMul v ninf := by
  simp only [signMul]
  constructor <;> split_ifs <;> rfl

theorem mul_scale {r s : ℝ} (hr : 0 < r) (hs : 0 < s) (x y : Ext ℝ) : scale r x * scale s y = scale (r * s) (x * y) := by
  show Ext.mul _ _ = scale _ (Ext.mul _ _)
  cases x <;> cases y <;> simp only [scale, Ext.mul, signMul_scale hr, signMul_scale hs, mul_mul_mul_comm]
  · exact (scale_signMul _ _).2.symm
  · exact (scale_signMul _ _).2.symm
  · exact (scale_signMul _ _).1.symm
  · exact (scale_signMul _ _).1.symm

theorem add_scale (r : ℝ) (x y : Ext ℝ) : scale r x + scale r y = scale r (x + y) := by
  show Ext.add _ _ = scale _ (Ext.add _ _)
  cases x <;> cases y <;> simp [scale, Ext.add, mul_add]

theorem sub_scale (r : ℝ) (x y : Ext ℝ) : scale r x - scale r y = scale r (x - y) := by
  show Ext.add _ (Ext.neg _) = scale _ (Ext.add _ (Ext.neg _))
  cases x <;> cases y <;> simp [scale, Ext.add, Ext.neg, mul_add]

theorem div_scale {r s : ℝ} (hr : 0 < r) (hs : 0 < s) (x y : Ext ℝ) : scale r x / scale s y = scale (r / s) (x / y) := by
  show Ext.div _ _ = scale _ (Ext.div _ _)
  cases x <;> cases y <;> simp only [scale, Ext.div, mul_eq_zero, hr.ne', hs.ne', false_or, mul_pos_iff_of_pos_left hr, mul_zero,
    mul_nonneg_iff_of_pos_left hs]
  all_goals split_ifs
  all_goals first | rfl | skip
  simp only [scale]
  rw [mul_div_mul_comm]

theorem lt_scale {r : ℝ} (hr : 0 < r) (x y : Ext ℝ) : lt (scale r x) (scale r y) = lt x y := by
  cases x <;> cases y <;> simp [scale, lt, mul_lt_mul_iff_right₀ hr]

theorem isNan_scale (r : ℝ) (x : Ext ℝ) : (scale r x).isNan = x.isNan := by
  cases x <;> rfl

theorem maximum_scale {r : ℝ} (hr : 0 < r) (x y : Ext ℝ) : maximum (scale r x) (scale r y) = scale r (maximum x y) := by
  simp only [maximum, isNan_scale, lt_scale hr]
  split_ifs <;> rfl

theorem sqrt_scale {t : ℝ} (ht : 0 < t) (x : Ext ℝ) : Ext.sqrt Real.sqrt (scale t x) = scale (Real.sqrt t) (Ext.sqrt Real.sqrt x) := by
  cases x <;> simp only [scale, Ext.sqrt]
  rename_i v
  have h : t * v < 0 ↔ v < 0 := by
    rw [← not_le, ← not_le, mul_nonneg_iff_of_pos_left ht]
  simp only [h]
  split_ifs
  · rfl
  · simp only [scale, Real.sqrt_mul ht.le]

theorem scale_one (x : Ext ℝ) : scale 1 x = x := by
  cases x <;> simp [scale]

end Ext

open Ext

section
variable {X : Type*}

theorem ktDistance_scale {t : ℝ} (ht : 0 < t) (k : X → X → ℝ) (x y : X) :
    ktDistance Real.sqrt (fun a b => t * k a b) x y = Ext.scale (Real.sqrt t) (ktDistance Real.sqrt k x y) := by
  rw [ktDistance, ktDistance, ← sqrt_scale ht]
  simp only [Ext.scale]
  congr 2
  ring

theorem ktA_scale {t : ℝ} (ht : 0 < t) (c b sigma : Ext ℝ) :
    ktA c (Ext.scale (Real.sqrt t) b) (Ext.scale (Real.sqrt t) sigma) = Ext.scale t (ktA c b sigma) := by
  have h := Real.sqrt_pos.2 ht
  have h1 : ∀ x : Ext ℝ, Ext.scale t x * c = Ext.scale t (x * c) := by
    intro x
    conv_lhs => rw [← scale_one c]
    rw [mul_scale ht one_pos, mul_one]
  simp only [ktA, mul_scale h h, Real.mul_self_sqrt ht.le, h1, maximum_scale ht]

theorem ktSigma_scale {t : ℝ} (ht : 0 < t) (b a sigma : Ext ℝ) :
    ktSigma Real.sqrt (Ext.scale (Real.sqrt t) b) (Ext.scale t a) (Ext.scale (Real.sqrt t) sigma)
      = Ext.scale (Real.sqrt t) (ktSigma Real.sqrt b a sigma) := by
  have h := Real.sqrt_pos.2 ht
  have h2 : Ext.fin 2 * Ext.scale t a = Ext.scale t (Ext.fin 2 * a) := by
    conv_lhs => rw [← scale_one (Ext.fin 2)]
    rw [mul_scale one_pos ht, one_mul]
  have h3 : ∀ x : Ext ℝ, Ext.scale t b * x = Ext.scale t (b * x) := by
    intro x
    conv_lhs => rw [← scale_one x]
    rw [mul_scale ht one_pos, mul_one]
  have h4 : ∀ b' x : Ext ℝ, Ext.scale t b' * x = Ext.scale t (b' * x) := by
    intro b' x
    conv_lhs => rw [← scale_one x]
    rw [mul_scale ht one_pos, mul_one]
  have h0 : Ext.fin (0 : ℝ) = Ext.scale t (Ext.fin 0) := by simp [Ext.scale]
  have h5 : t * t / (t * t) = 1 := div_self (by positivity)
  simp only [ktSigma, mul_scale h h, Real.mul_self_sqrt ht.le, h2, sub_scale, mul_scale ht ht, div_scale (mul_pos ht ht) (mul_pos ht ht), h5, scale_one, h4]
  conv_lhs => rw [h0]
  rw [maximum_scale ht, add_scale, sqrt_scale ht]

theorem ktAlpha_scale {h : ℕ} [NeZero (2 * h)] (t : ℝ) (k : X → X → ℝ) (x : Fin (2 * h) → X) (x1 x2 : X) (first : Fin h → ℤ)
    (maskX : Fin (2 * h) → ℝ) (maskC : Fin h → ℝ) :
    ktAlpha (fun a b => t * k a b) x x1 x2 first maskX maskC = t * ktAlpha k x x1 x2 first maskX maskC := by
  simp only [ktAlpha, mul_add, Finset.mul_sum]
  congr 1 <;> refine Finset.sum_congr rfl fun i _ => by ring

theorem ktSwap_scale {t : ℝ} (ht : 0 < t) (u : ℝ) (a : Ext ℝ) (alpha : ℝ) :
    ktSwap u (Ext.scale t a) (t * alpha) = ktSwap u a alpha := by
  have h : Ext.fin (t * alpha) = Ext.scale t (Ext.fin alpha) := rfl
  rw [ktSwap, ktSwap, h, div_scale ht ht, div_self ht.ne', scale_one]

/-- Halving does not depend on the scale of the kernel. -/
theorem C56_half_scale {h : ℕ} [NeZero (2 * h)] {t : ℝ} (ht : 0 < t) (k : X → X → ℝ) (c : Ext ℝ) (u : ℕ → ℝ) (x : Fin (2 * h) → X) :
    ktHalf Real.sqrt (fun a b => t * k a b) c u x = ktHalf Real.sqrt k c u x := by
  have H := forLoop_rel (P := fun _ (s s' : KTState h ℝ) => s.first = s'.first ∧ s.second = s'.second ∧ s.sigma = Ext.scale (Real.sqrt t) s'.sigma ∧
      s.maskX = s'.maskX ∧ s.maskC = s'.maskC) h (ktBody Real.sqrt (fun a b => t * k a b) c u x) (ktBody Real.sqrt k c u x) (ktInit h) (ktInit h)
    ⟨rfl, rfl, by simp [ktInit, Ext.scale], rfl, rfl⟩ (by
      rintro i s s' ⟨h1, h2, h3, h4, h5⟩
      simp only [ktBody, ktDistance_scale ht, h1, h2, h3, h4, h5, ktA_scale ht, ktAlpha_scale, ktSwap_scale ht, ktSigma_scale ht, and_self]
      )
  simp only [ktHalf]
  rw [H.1, H.2.1]

variable {n : ℕ} [NeZero n]

theorem ktHalfRecursive_scale {size : ℕ} [NeZero size] {t : ℝ} (ht : 0 < t) (k : X → X → ℝ) (c : Ext ℝ) (u : ℕ → ℝ) (d : Fin n → X) :
    ∀ (m : ℕ) (parent : Fin (ktRows size m) → ℤ),
      ktHalfRecursive (size := size) Real.sqrt (fun a b => t * k a b) c u d m parent = ktHalfRecursive Real.sqrt k c u d m parent
  | 0, _ => rfl
  | m + 1, parent => by
    simp only [ktHalfRecursive, C56_half_scale ht, ktHalfRecursive_scale ht k c u d m]

theorem ktPartition_scale {size : ℕ} [NeZero size] {t : ℝ} (ht : 0 < t) (k : X → X → ℝ) (c : Ext ℝ) (u : ℕ → ℝ) (d : Fin n → X) (m : ℕ) :
    ktPartition (size := size) Real.sqrt (fun a b => t * k a b) c u d m = ktPartition Real.sqrt k c u d m := by
  cases m with
  | zero => rfl
  | succ m => simp only [ktPartition, C56_half_scale ht, ktHalfRecursive_scale ht]

/-- Nor does kernel thinning as a whole: a square-root kernel may be replaced by any positive multiple. -/
theorem C56_thinning_scale [Zero X] {size : ℕ} [NeZero size] {t : ℝ} (ht : 0 < t) (big : ℝ) (k sk : X → X → ℝ) (c : Ext ℝ)
    (u : ℕ → ℝ) (choice : Choice n size ℝ) (ord : List (Fin (size + (size - size)))) (m : ℕ) (dataset : Data n X ℝ) :
    ktReduce big k (fun a b => t * sk a b) c u choice ord m dataset = ktReduce big k sk c u choice ord m dataset := by
  simp only [ktReduce, ktPartition_scale ht]

/-- Nor does Compress++, in all its halvings and the final thinning. -/
theorem C56_compress_scale [Zero X] {size : ℕ} [NeZero size] {t : ℝ} (ht : 0 < t) (P : KTParams X) (g : ℤ)
    (clip : ∀ l : ℕ, Choice n l ℝ) (dataset : Data n X ℝ) :
    compressPlusPlus (size := size) { P with sk := fun a b => t * P.sk a b } g clip dataset = compressPlusPlus P g clip dataset := by
  have hthin : ∀ {l : ℕ} [NeZero l] (sz : ℕ) [NeZero sz] (ind : Fin l → ℤ),
      cppThin { P with sk := fun a b => t * P.sk a b } dataset sz ind = cppThin P dataset sz ind := by
    intro l _ sz _ ind
    simp only [cppThin, ktReduce, ktPartition_scale ht]
  have hcomp : ∀ (j : ℕ) (ind : Fin (cppRows g.toNat j) → ℤ),
      cppCompress { P with sk := fun a b => t * P.sk a b } dataset g.toNat j ind = cppCompress P dataset g.toNat j ind := by
    intro j
    induction j with
    | zero => intro ind; rfl
    | succ j ih => intro ind; simp only [cppCompress, ih, hthin]
  simp only [compressPlusPlus, compressPlusPlusAt, hcomp, hthin]

end

/-- So a wrong `dim`, or a different output scale, of the square-root kernel has no effect on kernel thinning. -/
theorem C56_dim_harmless {d n : ℕ} [NeZero n] {size : ℕ} [NeZero size] (l s s' : ℝ) (hl : 0 < l) (hs : 0 < s) (hs' : 0 < s') (dim dim' : ℕ) (big : ℝ)
    (k : Vec d → Vec d → ℝ) (c : Ext ℝ) (u : ℕ → ℝ) (choice : Choice n size ℝ) (ord : List (Fin (size + (size - size)))) (m : ℕ)
    (dataset : Data n (Vec d) ℝ) :
    ktReduce big k (sqrtKernel l s dim : KExpr d).sem.compute c u choice ord m dataset
      = ktReduce big k (sqrtKernel l s' dim' : KExpr d).sem.compute c u choice ord m dataset := by
  have hp : ∀ (s : ℝ) (dim : ℕ), 0 < s → 0 < Real.sqrt s * (2 / (Real.pi * l ^ 2)) ^ ((dim : ℝ) / 4) := fun s dim hs => by positivity
  have h : ∀ (s : ℝ) (dim : ℕ), (sqrtKernel l s dim : KExpr d).sem.compute
      = fun a b => (Real.sqrt s * (2 / (Real.pi * l ^ 2)) ^ ((dim : ℝ) / 4)) * Real.exp (-sqDist a b / l ^ 2) := by
    intro s dim
    funext a b
    exact sqrtKernel_compute l s hl dim a b
  rw [h s dim, h s' dim', C56_thinning_scale (hp s dim hs), C56_thinning_scale (hp s' dim' hs')]

/-- A kernel on three features, with length scale 2 and output scale 5; the square root for sixteen features is none. -/
example : IsSquareRoot (sqrtKernel 2 5 3 : KExpr 3).sem.compute (KExpr.squaredExponential 2 5 : KExpr 3).sem.compute ∧
    ¬ IsSquareRoot (sqrtKernel 2 5 16 : KExpr 3).sem.compute (KExpr.squaredExponential 2 5 : KExpr 3).sem.compute := by
  refine ⟨C56_square_root 2 5 (by norm_num) (by norm_num), fun h => ?_⟩
  rcases (C56_wrong_dim 2 5 (by norm_num) (by norm_num) 16).1 h with h | h
  · norm_num at h
  · have := Real.two_le_pi
    nlinarith

example := C56_valid (d := 3) 2 5 (by norm_num) (by norm_num) 3

example (u : ℕ → ℝ) := C56_half_scale (h := 3) (t := 7) (by norm_num) (fun a b : ℝ => Real.exp (-(a - b) ^ 2)) (Ext.fin 2) u (fun i => ((i : ℕ) : ℝ))

example (u : ℕ → ℝ) (choice : Choice 17 4 ℝ) := C56_thinning_scale (t := 7) (by norm_num) 1000 (fun a b : ℝ => Real.exp (-(a - b) ^ 2)) (fun a b : ℝ => Real.exp (-2 * (a - b) ^ 2)) (Ext.fin 2) u choice
  (List.finRange _) 2 ⟨fun i => ((i : ℕ) : ℝ), fun _ => 1⟩

example (P : KTParams ℝ) (clip : ∀ l : ℕ, Choice 17 l ℝ) := C56_compress_scale (size := 4) (t := 7) (by norm_num) P 1 clip ⟨fun i => ((i : ℕ) : ℝ), fun _ => 1⟩

end Coreax
