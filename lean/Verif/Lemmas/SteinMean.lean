import Verif.Props.SteinKernel
import Verif.Lemmas.ScoreMatching
import Mathlib.Analysis.Calculus.LineDeriv.IntegrationByParts

/-!
# Kernels with bounded derivatives and the mean of the Stein kernel
-/

namespace Coreax

open Finset MeasureTheory Spec

variable {d : ℕ}

/-- Kernels that are bounded with their first derivatives and mixed second derivatives: everything built from constants, squared
exponential, inverse multiquadric and rational quadratic kernels by sums, products and powers. -/
def KExpr.Bounded : KExpr d → Prop
  | .const _ => True
  | .squaredExponential _ _ => True
  | .pcimq _ _ => True
  | .rationalQuadratic _ _ a => a ≠ 0
  | .power k _ => k.Bounded
  | .add a b => a.Bounded ∧ b.Bounded
  | .mul a b => a.Bounded ∧ b.Bounded
  | _ => False

namespace SteinMean

/-- A function and a vector field, bounded by `C` with their derivatives. -/
def Bdd (C : ℝ) (f : Vec d → ℝ) (F : Vec d → Vec d) : Prop :=
  ∀ y, |f y| ≤ C ∧ (∀ i, |F y i| ≤ C) ∧ ∃ (h : Vec d) (G : Fin d → Vec d), IsGrad f h y ∧ (∀ i, IsGrad (fun z => F z i) (G i) y) ∧
    (∀ i, |h i| ≤ C) ∧ ∀ i j, |G i j| ≤ C

theorem Bdd.nonneg {C : ℝ} {f : Vec d → ℝ} {F : Vec d → Vec d} (h : Bdd C f F) : 0 ≤ C := (abs_nonneg _).trans (h 0).1

theorem Bdd.congr {C : ℝ} {f f' : Vec d → ℝ} {F F' : Vec d → Vec d} (h : Bdd C f F) (hf : ∀ y, f' y = f y) (hF : ∀ y i, F' y i = F y i) :
    Bdd C f' F' := by
  have e1 : f' = f := funext hf
  have e2 : F' = F := funext fun y => funext (hF y)
  rw [e1, e2]
  exact h

theorem bdd_const (c : ℝ) : Bdd |c| (fun _ : Vec d => c) (fun _ _ => 0) := fun y =>
  ⟨le_rfl, fun i => by simp, fun _ => 0, fun _ _ => 0, isGrad_const c, fun i => isGrad_const 0, fun i => by simp, fun i j => by simp⟩

theorem Bdd.add {C C' : ℝ} {f f' : Vec d → ℝ} {F F' : Vec d → Vec d} (h : Bdd C f F) (h' : Bdd C' f' F') :
    Bdd (C + C') (fun y => f y + f' y) (fun y i => F y i + F' y i) := by
  intro y
  obtain ⟨a1, a2, g, G, a3, a4, a5, a6⟩ := h y
  obtain ⟨b1, b2, g', G', b3, b4, b5, b6⟩ := h' y
  exact ⟨(abs_add_le _ _).trans (add_le_add a1 b1), fun i => (abs_add_le _ _).trans (add_le_add (a2 i) (b2 i)), _, _, a3.add b3,
    fun i => (a4 i).add (b4 i), fun i => (abs_add_le _ _).trans (add_le_add (a5 i) (b5 i)),
    fun i j => (abs_add_le _ _).trans (add_le_add (a6 i j) (b6 i j))⟩

theorem abs_mul_le {a b A B : ℝ} (ha : |a| ≤ A) (hb : |b| ≤ B) : |a * b| ≤ A * B := by
  rw [abs_mul]
  exact mul_le_mul ha hb (abs_nonneg _) ((abs_nonneg _).trans ha)

theorem Bdd.mul {C C' : ℝ} {f f' : Vec d → ℝ} {F F' : Vec d → Vec d} (h : Bdd C f F) (h' : Bdd C' f' F') :
    Bdd (4 * (C * C')) (fun y => f y * f' y) (fun y i => F y i * f' y + F' y i * f y) := by
  intro y
  have hC := h.nonneg
  have hC' := h'.nonneg
  have hp : 0 ≤ C * C' := mul_nonneg hC hC'
  obtain ⟨a1, a2, g, G, a3, a4, a5, a6⟩ := h y
  obtain ⟨b1, b2, g', G', b3, b4, b5, b6⟩ := h' y
  refine ⟨(abs_mul_le a1 b1).trans (by linarith), fun i => ?_, _, _, a3.mul b3, fun i => ((a4 i).mul b3).add ((b4 i).mul a3), fun i => ?_,
    fun i j => ?_⟩
  · have e1 := abs_add_le (F y i * f' y) (F' y i * f y)
    have e2 := abs_mul_le (a2 i) b1
    have e3 := abs_mul_le (b2 i) a1
    have e4 : C' * C = C * C' := mul_comm _ _
    linarith
  · have e1 := abs_add_le (f y * g' i) (f' y * g i)
    have e2 := abs_mul_le a1 (b5 i)
    have e3 := abs_mul_le b1 (a5 i)
    have e4 : C' * C = C * C' := mul_comm _ _
    linarith
  · have e1 := abs_add_le (F y i * g' j + f' y * G i j) (F' y i * g j + f y * G' i j)
    have e2 := abs_add_le (F y i * g' j) (f' y * G i j)
    have e3 := abs_add_le (F' y i * g j) (f y * G' i j)
    have p1 := abs_mul_le (a2 i) (b5 j)
    have p2 := abs_mul_le b1 (a6 i j)
    have p3 := abs_mul_le (b2 i) (a5 j)
    have p4 := abs_mul_le a1 (b6 i j)
    have e4 : C' * C = C * C' := mul_comm _ _
    linarith

/-- Functions of the squared distance. -/
theorem bdd_radial {φ φ1 φ2 : ℝ → ℝ} {C : ℝ} (h1 : ∀ r, 0 ≤ r → HasDerivAt φ (φ1 r) r) (h2 : ∀ r, 0 ≤ r → HasDerivAt φ1 (φ2 r) r)
    (b0 : ∀ r, 0 ≤ r → |φ r| ≤ C) (b1 : ∀ r, 0 ≤ r → |φ1 r| * (1 + r) ≤ C) (b2 : ∀ r, 0 ≤ r → |φ2 r| * (1 + r) ≤ C) (x : Vec d) :
    Bdd (8 * C) (fun y => φ (sqDist x y)) (fun y i => φ1 (sqDist x y) * (2 * (x i - y i))) := by
  intro y
  have hr : 0 ≤ sqDist x y := sqDist_nonneg x y
  have hC : 0 ≤ C := (abs_nonneg _).trans (b0 0 le_rfl)
  have hsq : IsGrad (fun z : Vec d => sqDist x z) (fun j => -(2 * (x j - y j))) y := isGrad_sqDist_right x
  have hi : ∀ i, IsGrad (fun z : Vec d => 2 * (x i - z i)) (fun j => if i = j then -2 else 0) y := fun i =>
    (((isGrad_const (x i)).sub (isGrad_coord i)).const_mul 2).congr (fun _ => rfl) fun j => by split <;> norm_num
  have hcoord : ∀ i, (x i - y i) ^ 2 ≤ sqDist x y := fun i => by
    have := single_le_sum (f := fun i => (x i - y i) * (x i - y i)) (fun i _ => mul_self_nonneg _) (mem_univ i)
    rw [pow_two]
    exact this
  have hc1 : ∀ i, |2 * (x i - y i)| ≤ 1 + sqDist x y := fun i => by
    have := hcoord i
    rw [abs_le]
    constructor <;> nlinarith [sq_nonneg (x i - y i - 1), sq_nonneg (x i - y i + 1)]
  have hc2 : ∀ i j, |-(2 * (x j - y j)) * (2 * (x i - y i))| ≤ 4 * (1 + sqDist x y) := fun i j => by
    have hi := hcoord i
    have hj := hcoord j
    rw [abs_le]
    constructor <;> nlinarith [sq_nonneg (x i - y i - (x j - y j)), sq_nonneg (x i - y i + (x j - y j))]
  have hb1 : |φ1 (sqDist x y)| ≤ C := le_trans (le_mul_of_one_le_right (abs_nonneg _) (by linarith)) (b1 _ hr)
  have hfst : ∀ i, |φ1 (sqDist x y) * (2 * (x i - y i))| ≤ C := fun i => by
    rw [abs_mul]
    exact (mul_le_mul_of_nonneg_left (hc1 i) (abs_nonneg _)).trans (b1 _ hr)
  refine ⟨(b0 _ hr).trans (by linarith), fun i => (hfst i).trans (by linarith), _, _, hsq.scalar (h1 _ hr),
    fun i => (hsq.scalar (h2 _ hr)).mul (hi i), fun i => ?_, fun i j => ?_⟩
  · rw [mul_neg, abs_neg]
    exact (hfst i).trans (by linarith)
  · have e1 := abs_add_le (φ1 (sqDist x y) * (if i = j then -2 else 0)) (2 * (x i - y i) * (φ2 (sqDist x y) * -(2 * (x j - y j))))
    have e2 : |φ1 (sqDist x y) * (if i = j then -2 else 0)| ≤ C * 2 :=
      abs_mul_le hb1 (by split <;> norm_num)
    have e3 : |2 * (x i - y i) * (φ2 (sqDist x y) * -(2 * (x j - y j)))| ≤ 4 * C := by
      rw [show 2 * (x i - y i) * (φ2 (sqDist x y) * -(2 * (x j - y j))) = φ2 (sqDist x y) * (-(2 * (x j - y j)) * (2 * (x i - y i))) by ring, abs_mul]
      refine (mul_le_mul_of_nonneg_left (hc2 i j) (abs_nonneg _)).trans ?_
      have := b2 _ hr
      linarith
    linarith

/-- The squared exponential profile. -/
theorem bdd_exp {s a : ℝ} (ha : 0 < a) : ∃ C, ∀ x : Vec d, Bdd C (fun y => s * Real.exp (-sqDist x y / a))
    (fun y i => -(s / a) * Real.exp (-sqDist x y / a) * (2 * (x i - y i))) := by
  have hd : ∀ c r : ℝ, HasDerivAt (fun r => c * Real.exp (-r / a)) (-(c / a) * Real.exp (-r / a)) r := fun c r => by
    have h1 : HasDerivAt (fun r : ℝ => -r / a) (-1 / a) r := (hasDerivAt_id r).neg.div_const a
    exact (h1.exp.const_mul c).congr_deriv (by ring)
  have hb : ∀ r, 0 ≤ r → Real.exp (-r / a) * (1 + r) ≤ 1 + a := fun r hr => by
    have h1 : r / a + 1 ≤ Real.exp (r / a) := Real.add_one_le_exp _
    have h2 : Real.exp (-r / a) * Real.exp (r / a) = 1 := by rw [← Real.exp_add, neg_div, neg_add_cancel, Real.exp_zero]
    have h3 := (Real.exp_pos (-r / a)).le
    have h4 : r = a * (r / a) := by field_simp
    have h5 : (0 : ℝ) ≤ r / a := by positivity
    have h6 : 1 + r ≤ (1 + a) * Real.exp (r / a) := by nlinarith
    calc Real.exp (-r / a) * (1 + r) ≤ Real.exp (-r / a) * ((1 + a) * Real.exp (r / a)) := mul_le_mul_of_nonneg_left h6 h3
      _ = (1 + a) * (Real.exp (-r / a) * Real.exp (r / a)) := by ring
      _ = 1 + a := by rw [h2, mul_one]
  have hb' : ∀ c r, 0 ≤ r → |c * Real.exp (-r / a)| * (1 + r) ≤ |c| * (1 + a) := fun c r hr => by
    rw [abs_mul, abs_of_pos (Real.exp_pos _), mul_assoc]
    exact mul_le_mul_of_nonneg_left (hb r hr) (abs_nonneg _)
  obtain ⟨C, hC⟩ : ∃ C, C = |s| * (1 + a) + |-(s / a)| * (1 + a) + |-(-(s / a) / a)| * (1 + a) := ⟨_, rfl⟩
  have p1 : 0 ≤ |s| * (1 + a) := by positivity
  have p2 : 0 ≤ |-(s / a)| * (1 + a) := by positivity
  have p3 : 0 ≤ |-(-(s / a) / a)| * (1 + a) := by positivity
  refine ⟨8 * C, fun x => bdd_radial (φ := fun r => s * Real.exp (-r / a)) (φ1 := fun r => -(s / a) * Real.exp (-r / a))
    (φ2 := fun r => -(-(s / a) / a) * Real.exp (-r / a)) (fun r _ => hd s r) (fun r _ => hd _ r) (fun r hr => ?_) (fun r hr => ?_)
    (fun r hr => ?_) x⟩
  · have := hb' s r hr
    have h2 := le_mul_of_one_le_right (abs_nonneg (s * Real.exp (-r / a))) (show 1 ≤ 1 + r by linarith)
    linarith
  · have := hb' (-(s / a)) r hr
    linarith
  · have := hb' (-(-(s / a) / a)) r hr
    linarith

/-- The profile of the rational quadratic and inverse multiquadric kernels. -/
theorem bdd_rpow {s c α : ℝ} (hc : 0 < c) (hα : 0 < α) : ∃ C, ∀ x : Vec d, Bdd C (fun y => s * (1 + c * sqDist x y) ^ (-α))
    (fun y i => -(s * α * c) * (1 + c * sqDist x y) ^ (-α - 1) * (2 * (x i - y i))) := by
  have hu : ∀ r, 0 ≤ r → 0 < 1 + c * r := fun r hr => by positivity
  have hd : ∀ t β r : ℝ, 0 ≤ r → HasDerivAt (fun r => t * (1 + c * r) ^ β) (t * β * c * (1 + c * r) ^ (β - 1)) r := fun t β r hr => by
    have h1 : HasDerivAt (fun r : ℝ => 1 + c * r) c r := by
      simpa using ((hasDerivAt_id r).const_mul c).const_add 1
    exact ((h1.rpow_const (p := β) (Or.inl (hu r hr).ne')).const_mul t).congr_deriv (by ring)
  have hb0 : ∀ β r : ℝ, β ≤ 0 → 0 ≤ r → (1 + c * r) ^ β ≤ 1 := fun β r hβ hr =>
    Real.rpow_le_one_of_one_le_of_nonpos (by have := mul_nonneg hc.le hr; linarith) hβ
  have hb1 : ∀ β r : ℝ, β ≤ 0 → 0 ≤ r → (1 + c * r) ^ (β - 1) * (1 + r) ≤ 1 + 1 / c := fun β r hβ hr => by
    have h1 : 1 + r ≤ (1 + 1 / c) * (1 + c * r) := by
      have e : (1 + 1 / c) * (1 + c * r) = 1 + r + 1 / c + c * r := by field_simp; ring
      rw [e]
      have : 0 ≤ c * r := mul_nonneg hc.le hr
      have : 0 ≤ 1 / c := by positivity
      linarith
    have h2 : (1 + c * r) ^ (β - 1) * (1 + c * r) = (1 + c * r) ^ β := by
      rw [Real.rpow_sub_one (hu r hr).ne', div_mul_cancel₀ _ (hu r hr).ne']
    calc (1 + c * r) ^ (β - 1) * (1 + r) ≤ (1 + c * r) ^ (β - 1) * ((1 + 1 / c) * (1 + c * r)) :=
          mul_le_mul_of_nonneg_left h1 (Real.rpow_nonneg (hu r hr).le _)
      _ = (1 + 1 / c) * ((1 + c * r) ^ (β - 1) * (1 + c * r)) := by ring
      _ ≤ (1 + 1 / c) * 1 := by
        rw [h2]
        exact mul_le_mul_of_nonneg_left (hb0 β r hβ hr) (by positivity)
      _ = _ := mul_one _
  have hb1' : ∀ t β r : ℝ, β ≤ 0 → 0 ≤ r → |t * (1 + c * r) ^ (β - 1)| * (1 + r) ≤ |t| * (1 + 1 / c) := fun t β r hβ hr => by
    rw [abs_mul, abs_of_nonneg (Real.rpow_nonneg (hu r hr).le _), mul_assoc]
    exact mul_le_mul_of_nonneg_left (hb1 β r hβ hr) (abs_nonneg _)
  obtain ⟨C, hC⟩ : ∃ C, C = |s| + |s * -α * c| * (1 + 1 / c) + |s * -α * c * (-α - 1) * c| * (1 + 1 / c) := ⟨_, rfl⟩
  have p1 : 0 ≤ |s| := abs_nonneg _
  have p2 : 0 ≤ |s * -α * c| * (1 + 1 / c) := by positivity
  have p3 : 0 ≤ |s * -α * c * (-α - 1) * c| * (1 + 1 / c) := by positivity
  refine ⟨8 * C, fun x => (bdd_radial (φ := fun r => s * (1 + c * r) ^ (-α)) (φ1 := fun r => s * -α * c * (1 + c * r) ^ (-α - 1))
    (φ2 := fun r => s * -α * c * (-α - 1) * c * (1 + c * r) ^ (-α - 1 - 1)) (C := C) (fun r hr => hd s _ r hr) (fun r hr => hd _ _ r hr) (fun r hr => ?_)
    (fun r hr => ?_) (fun r hr => ?_) x).congr (fun y => rfl) fun y i => by ring⟩
  · rw [abs_mul, abs_of_nonneg (Real.rpow_nonneg (hu r hr).le _)]
    have := mul_le_mul_of_nonneg_left (hb0 (-α) r (by linarith) hr) (abs_nonneg s)
    linarith
  · have := hb1' (s * -α * c) (-α) r (by linarith) hr
    linarith
  · have := hb1' (s * -α * c * (-α - 1) * c) (-α - 1) r (by linarith) hr
    linarith

theorem bdd_pow (C : ℝ) (n : ℕ) :
    ∃ C', ∀ f F, Bdd C f F → Bdd C' (fun y : Vec d => f y ^ (n + 1)) (fun y i => (n + 1 : ℕ) * F y i * f y ^ n) := by
  induction n with
  | zero => exact ⟨C, fun f F h => h.congr (fun y => by simp) fun y i => by simp⟩
  | succ n ih =>
    obtain ⟨C', h'⟩ := ih
    refine ⟨4 * (C' * C), fun f F h => ((h' f F h).mul h).congr (fun y => by ring) fun y i => ?_⟩
    push_cast
    ring

/-- Bounded kernels are bounded, uniformly. -/
theorem bounded_bdd (K : KExpr d) (hc : K.check = .ok ()) (hb : K.Bounded) :
    ∃ C, ∀ x, Bdd C (fun y => K.sem.compute x y) (fun y => K.sem.gradX x y) := by
  induction K with
  | const c => exact ⟨|c|, fun x => bdd_const c⟩
  | squaredExponential l s =>
    have hl := checkPos_ok (bind_ok hc).1
    obtain ⟨C, h⟩ := bdd_exp (d := d) (s := s) (a := 2 * l ^ 2) (by positivity)
    refine ⟨C, fun x => (h x).congr (fun y => rfl) fun y i => ?_⟩
    simp only [KExpr.sem, squaredExponentialSem, Pi.neg_apply]
    field_simp
  | pcimq l s =>
    have hl := checkPos_ok (bind_ok hc).1
    have hs := checkPos_ok (bind_ok hc).2
    obtain ⟨C, h⟩ := bdd_rpow (d := d) (s := s) (c := 1 / (2 * l ^ 2)) (α := 1 / 2) (by positivity) (by norm_num)
    have hu : ∀ x y : Vec d, 0 < 1 + 1 / (2 * l ^ 2) * sqDist x y := fun x y => by
      have := sqDist_nonneg x y
      positivity
    have e0 : ∀ x y : Vec d, 1 / Real.sqrt (1 + sqDist x y / (2 * l ^ 2)) = (1 + 1 / (2 * l ^ 2) * sqDist x y) ^ (-(1 / 2) : ℝ) := fun x y => by
      rw [Real.rpow_neg (hu x y).le, ← Real.sqrt_eq_rpow, one_div, one_div_mul_eq_div]
    refine ⟨C, fun x => (h x).congr (fun y => ?_) fun y i => ?_⟩
    · simp only [KExpr.sem, pcimqSem]
      rw [← e0, mul_one_div]
    · simp only [KExpr.sem, pcimqSem, Pi.neg_apply]
      have e1 : s / Real.sqrt (1 + sqDist x y / (2 * l ^ 2)) / s = (1 + 1 / (2 * l ^ 2) * sqDist x y) ^ (-(1 / 2) : ℝ) := by
        rw [← e0, div_right_comm, div_self hs.ne']
      have e2 : ((1 + 1 / (2 * l ^ 2) * sqDist x y) ^ (-(1 / 2) : ℝ)) ^ 3 = (1 + 1 / (2 * l ^ 2) * sqDist x y) ^ (-(1 / 2) - 1 : ℝ) := by
        rw [← Real.rpow_natCast, ← Real.rpow_mul (hu x y).le]
        norm_num
      rw [e1, e2]
      field_simp
  | rationalQuadratic l s a =>
    have hl := checkPos_ok (bind_ok hc).1
    have ha0 : 0 ≤ a := checkNonneg_ok (bind_ok (bind_ok hc).2).2
    have ha : 0 < a := lt_of_le_of_ne ha0 (Ne.symm hb)
    obtain ⟨C, h⟩ := bdd_rpow (d := d) (s := s) (c := 1 / (2 * a * l ^ 2)) (α := a) (by positivity) ha
    refine ⟨C, fun x => (h x).congr (fun y => ?_) fun y i => ?_⟩
    · simp only [KExpr.sem, rationalQuadraticSem]
      rw [one_div_mul_eq_div]
    · simp only [KExpr.sem, rationalQuadraticSem, Pi.neg_apply]
      rw [one_div_mul_eq_div]
      field_simp
  | power k n ih =>
    obtain ⟨C, h⟩ := ih (bind_ok hc).1 hb
    have hn : 1 ≤ n.toInt := checkIntGe_ok (bind_ok hc).2
    obtain ⟨m, hm⟩ : ∃ m : ℕ, n.toInt = (m + 1 : ℕ) := ⟨(n.toInt - 1).toNat, by push_cast; omega⟩
    obtain ⟨C', h'⟩ := bdd_pow (d := d) C m
    refine ⟨C', fun x => (h' _ _ (h x)).congr (fun y => ?_) fun y i => ?_⟩
    · simp only [KExpr.sem, powerSem, hm]
      rw [zpow_natCast]
    · simp only [KExpr.sem, powerSem, hm]
      rw [show ((m + 1 : ℕ) : ℤ) - 1 = (m : ℕ) by push_cast; ring, zpow_natCast]
      push_cast
      ring
  | add a b iha ihb =>
    obtain ⟨C, h⟩ := iha (bind_ok hc).1 hb.1
    obtain ⟨C', h'⟩ := ihb (bind_ok hc).2 hb.2
    exact ⟨C + C', fun x => (h x).add (h' x)⟩
  | mul a b iha ihb =>
    obtain ⟨C, h⟩ := iha (bind_ok hc).1 hb.1
    obtain ⟨C', h'⟩ := ihb (bind_ok hc).2 hb.2
    refine ⟨4 * (C * C'), fun x => ((h x).mul (h' x)).congr (fun y => ?_) fun y i => ?_⟩
    · simp only [KExpr.sem, mulSem]
      split
      · rw [← mul_eq_sem a b ‹_›]
        ring
      · rfl
    · simp only [KExpr.sem, mulSem]
      split
      · rw [← mul_eq_sem a b ‹_›]
        ring
      · rfl
  | _ => exact hb.elim

theorem _root_.Coreax.KExpr.Bounded.noStein {K : KExpr d} (h : K.Bounded) : K.NoStein := by
  induction K with
  | power k n ih => exact ih h
  | add a b iha ihb => exact ⟨iha h.1, ihb h.2⟩
  | mul a b iha ihb => exact ⟨iha h.1, ihb h.2⟩
  | stein k s => exact h.elim
  | _ => trivial

/-- A bounded measurable function times an integrable one. -/
theorem integrable_bdd {p f : Vec d → ℝ} (hp : Integrable p) (hf : Measurable f) {C : ℝ} (hC : ∀ y, |f y| ≤ C) :
    Integrable fun y => p y * f y := by
  refine Integrable.mono' (hp.abs.mul_const C) (hp.aestronglyMeasurable.mul hf.aestronglyMeasurable) ?_
  filter_upwards with y
  rw [Real.norm_eq_abs, abs_mul]
  exact mul_le_mul_of_nonneg_left (hC y) (abs_nonneg _)

/-- Integration by parts against a bounded field with bounded derivatives. -/
theorem parts {p : Vec d → ℝ} {ψ : Vec d → Vec d} (h : Spec.IsScore p ψ) (hp : Integrable p) (hψ : ∀ i, Integrable fun y => p y * ψ y i)
    (H : Vec d → Vec d) (hd : ∀ i, Differentiable ℝ fun y => H y i) {C : ℝ} (hC : ∀ y i, |H y i| ≤ C)
    (hC' : ∀ y i, |fderiv ℝ (fun z => H z i) y (Pi.single i 1)| ≤ C) :
    Integrable (fun y => p y * ∑ i, (fderiv ℝ (fun z => H z i) y (Pi.single i 1) + H y i * ψ y i)) ∧
      ∫ y, p y * ∑ i, (fderiv ℝ (fun z => H z i) y (Pi.single i 1) + H y i * ψ y i) = 0 := by
  have hm : ∀ i, Measurable fun y => H y i := fun i => (hd i).continuous.measurable
  have h1 : ∀ i, Integrable fun y => p y * fderiv ℝ (fun z => H z i) y (Pi.single i 1) := fun i =>
    integrable_bdd hp (measurable_fderiv_apply_const ℝ (fun z => H z i) (Pi.single i 1)) fun y => hC' y i
  have h2 : ∀ i, Integrable fun y => p y * ψ y i * H y i := fun i => integrable_bdd (hψ i) (hm i) fun y => hC y i
  have h3 : ∀ i, Integrable fun y => p y * H y i := fun i => integrable_bdd hp (hm i) fun y => hC y i
  have key : ∀ i, ∫ y, p y * fderiv ℝ (fun z => H z i) y (Pi.single i 1) = - ∫ y, p y * ψ y i * H y i := fun i => by
    have := integral_mul_fderiv_eq_neg_fderiv_mul_of_integrable (μ := (volume : Measure (Vec d))) (f := p) (g := fun y => H y i)
      (v := Pi.single i 1) (by simpa only [IsScore.fderiv h] using h2 i) (h1 i) (h3 i) (fun x _ => IsScore.diff h x) (fun x _ => hd i x)
    simp only [IsScore.fderiv h] at this
    exact this
  have he : (fun y => p y * ∑ i, (fderiv ℝ (fun z => H z i) y (Pi.single i 1) + H y i * ψ y i)) =
      fun y => ∑ i, (p y * fderiv ℝ (fun z => H z i) y (Pi.single i 1) + p y * ψ y i * H y i) := by
    funext y
    rw [mul_sum]
    exact sum_congr rfl fun i _ => by ring
  rw [he]
  have h12 : ∀ i, Integrable fun y => p y * fderiv ℝ (fun z => H z i) y (Pi.single i 1) + p y * ψ y i * H y i := fun i => (h1 i).add (h2 i)
  refine ⟨integrable_finsetSum _ fun i _ => h12 i, ?_⟩
  rw [integral_finsetSum _ fun i _ => h12 i]
  refine sum_eq_zero fun i _ => ?_
  rw [integral_add (h1 i) (h2 i), key i, neg_add_cancel]

/-- The Stein kernel has mean zero in its second argument. -/
theorem stein_mean (K : KExpr d) (hc : K.check = .ok ()) (hs : K.Smooth) (hb : K.Bounded) {p : Vec d → ℝ} {ψ : Vec d → Vec d}
    (h : Spec.IsScore p ψ) (hp : Integrable p) (hψ : ∀ i, Integrable fun y => p y * ψ y i) (x : Vec d) :
    Integrable (fun y => p y * (KExpr.stein K ψ).sem.compute x y) ∧ ∫ y, p y * (KExpr.stein K ψ).sem.compute x y = 0 := by
  obtain ⟨C, hB⟩ := bounded_bdd K hc hb
  have hB := hB x
  have hsym := symOk_of_noStein K hb.noStein
  obtain ⟨H, hH⟩ : ∃ H : Vec d → Vec d, H = fun y i => K.sem.gradX x y i + K.sem.compute x y * ψ x i := ⟨_, rfl⟩
  have hg : ∀ y, ∃ G : Fin d → Vec d, (∀ i, IsGrad (fun z => H z i) (fun j => G i j + K.sem.gradY x y j * ψ x i) y) ∧
      (∀ i j, |G i j| ≤ C) ∧ (∀ i, |K.sem.gradY x y i| ≤ C) ∧ K.sem.div x y = ∑ i, G i i := fun y => by
    obtain ⟨-, -, g, G, a3, a4, a5, a6⟩ := hB y
    have e1 : K.sem.gradY x y = g := (gradOk_of_smooth K x y hc (hs.smoothAt x y)).right.unique a3
    have e2 : K.sem.div x y = ∑ i, G i i := by
      have h1 := isDiv_of_smooth K y x hc (hs.smoothAt y x) (hs.divSmoothAt y x)
      have h2 : IsDiv (fun y' => K.sem.gradY y' x) (∑ i, G i i) y :=
        (show IsDiv (fun y' => K.sem.gradX x y') (∑ i, G i i) y from ⟨G, a4, rfl⟩).congr (fun z i => by rw [hsym.grad x z]) rfl
      rw [hsym.div x y]
      exact h1.unique h2
    refine ⟨G, fun i => ?_, a6, e1 ▸ a5, e2⟩
    rw [hH, e1]
    exact ((a4 i).add (a3.const_mul (ψ x i))).congr (fun z => by ring) fun j => by ring
  have hfd : ∀ y, ∃ G : Fin d → Vec d, (∀ i, fderiv ℝ (fun z => H z i) y (Pi.single i 1) = G i i + K.sem.gradY x y i * ψ x i) ∧
      (∀ i j, |G i j| ≤ C) ∧ (∀ i, |K.sem.gradY x y i| ≤ C) ∧ K.sem.div x y = ∑ i, G i i := fun y => by
    obtain ⟨G, h1, h2⟩ := hg y
    refine ⟨G, fun i => ?_, h2⟩
    rw [(h1 i).fderiv, Spec.gradMap_single]
  have hC0 := hB.nonneg
  obtain ⟨D, hD⟩ : ∃ D, ∀ i, |ψ x i| ≤ D := ⟨∑ i, |ψ x i|, fun i => single_le_sum (f := fun i => |ψ x i|) (fun _ _ => abs_nonneg _) (mem_univ i)⟩
  have := parts h hp hψ H (fun i y => by obtain ⟨G, h1, -⟩ := hg y; exact (h1 i).differentiableAt) (C := C + C * D)
    (fun y i => by
      rw [hH]
      exact (abs_add_le _ _).trans (add_le_add ((hB y).2.1 i) (abs_mul_le (hB y).1 (hD i))))
    (fun y i => by
      obtain ⟨G, h1, h2, h3, -⟩ := hfd y
      rw [h1]
      exact (abs_add_le _ _).trans (add_le_add (h2 i i) (abs_mul_le (h3 i) (hD i))))
  have he : ∀ y, ∑ i, (fderiv ℝ (fun z => H z i) y (Pi.single i 1) + H y i * ψ y i) = (KExpr.stein K ψ).sem.compute x y := fun y => by
    obtain ⟨G, h1, -, -, h4⟩ := hfd y
    have e : ∀ i, fderiv ℝ (fun z => H z i) y (Pi.single i 1) + H y i * ψ y i =
        G i i + K.sem.gradY x y i * ψ x i + (K.sem.gradX x y i + K.sem.compute x y * ψ x i) * ψ y i := fun i => by rw [h1 i, hH]
    simp only [e, KExpr.sem, KSem.ofCompute, steinCompute, vdot, h4, mul_sum, ← sum_add_distrib]
    exact sum_congr rfl fun i _ => by ring
  simpa only [he] using this

end SteinMean

end Coreax
