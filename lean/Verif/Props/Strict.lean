import Verif.Lemmas.Strict
import Verif.Props.Kernel
import Verif.Props.Equivariance
import Verif.Props.PivotQuadrature
import Verif.Props.Approximation
import Verif.Props.Metrics
import Mathlib.Algebra.Group.ForwardDiff

/-!
# C87: which kernels tell distributions apart
-/

set_option linter.unusedSectionVars false

namespace Coreax

open Spec

namespace Strict
variable {d : ℕ}

theorem vdot_add_right (x y z : Vec d) : vdot x (y + z) = vdot x y + vdot x z := by
  simp only [vdot, Pi.add_apply, mul_add, Finset.sum_add_distrib]

/-- The character `y ↦ exp (2 t x·y)`. -/
noncomputable def character (t : ℝ) (x : Vec d) : Multiplicative (Vec d) →* ℝ where
  toFun y := Real.exp (2 * t * vdot x y.toAdd)
  map_one' := by simp [vdot]
  map_mul' a b := by rw [toAdd_mul, vdot_add_right, mul_add, Real.exp_add]

theorem character_injective {t : ℝ} (ht : 0 < t) : Function.Injective (character t : Vec d → _) := by
  intro a b h
  funext i
  have := DFunLike.congr_fun h (Multiplicative.ofAdd (Pi.single i 1))
  simp only [character, MonoidHom.coe_mk, OneHom.coe_mk, toAdd_ofAdd, Real.exp_eq_exp] at this
  have e : ∀ x : Vec d, vdot x (Pi.single i 1) = x i := fun x => by simp [vdot, Pi.single_apply]
  rw [e, e] at this
  have h2 : 2 * t ≠ 0 := by positivity
  exact mul_left_cancel₀ h2 this

theorem strictSqDist : IsStrictSqDist (sqDist : Vec d → Vec d → ℝ) := by
  refine ⟨isSqDist_sqDist, fun t ht => isStrict_of_eval (isSqDist_sqDist.2 t ht.le) fun n x c hx h => ?_⟩
  have hli := (linearIndependent_monoidHom (Multiplicative (Vec d)) ℝ).comp (fun i => character t (x i)) ((character_injective ht).comp hx)
  rw [Fintype.linearIndependent_iff] at hli
  have h0 := hli (fun i => c i * Real.exp (-(t * vdot (x i) (x i)))) (by
    funext y
    have h1 := h y.toAdd
    have e : ∀ i, c i * Real.exp (-(t * sqDist (x i) y.toAdd)) =
        (c i * Real.exp (-(t * vdot (x i) (x i))) * Real.exp (2 * t * vdot (x i) y.toAdd)) * Real.exp (-(t * vdot y.toAdd y.toAdd)) := by
      intro i
      have : sqDist (x i) y.toAdd = vdot (x i) (x i) - 2 * vdot (x i) y.toAdd + vdot y.toAdd y.toAdd := by
        simp only [sqDist, vdot, Finset.mul_sum, ← Finset.sum_sub_distrib, ← Finset.sum_add_distrib]
        exact Finset.sum_congr rfl fun j _ => by ring
      rw [this, mul_assoc (c i), mul_assoc (c i), ← Real.exp_add, ← Real.exp_add]
      congr 2
      ring
    simp only [e, ← Finset.sum_mul] at h1
    have h2 := (mul_eq_zero.1 h1).resolve_right (Real.exp_pos _).ne'
    simpa [Finset.sum_apply, character] using h2)
  intro i
  exact (mul_eq_zero.1 (h0 i)).resolve_right (Real.exp_pos _).ne'

theorem strict_exp_nrm {a : ℝ} (ha : 0 < a) : IsStrict fun x y : Vec d => Real.exp (-(a * Real.sqrt (sqDist x y))) := by
  have hpsd : IsPSD fun x y : Vec d => Real.exp (-(a * Real.sqrt (sqDist x y))) := by
    simpa using (isSqDist_sqDist (d := d)).exp_sqrt le_rfl ha.le
  refine isStrict_of_eval hpsd fun n x c hx h j => ?_
  rcases Nat.eq_zero_or_pos d with rfl | hd
  · have h1 := h (x j)
    rw [Finset.sum_eq_single j (fun i _ hij => absurd (hx (Subsingleton.elim _ _)) hij) (by simp)] at h1
    simpa [sqDist] using h1
  · by_contra hc
    refine not_differentiable_exp_abs (neg_ne_zero.2 ha.ne') hc ?_
    let e : Vec d := Pi.single ⟨0, hd⟩ 1
    have hsq : ∀ i s, sqDist (x i) (x j + s • e) = sqDist (x i) (x j) - 2 * s * (x i ⟨0, hd⟩ - x j ⟨0, hd⟩) + s ^ 2 := by
      intro i s
      have : ∀ l, (x i l - (x j + s • e) l) * (x i l - (x j + s • e) l) = (x i l - x j l) * (x i l - x j l) +
          (if l = ⟨0, hd⟩ then - 2 * s * (x i ⟨0, hd⟩ - x j ⟨0, hd⟩) + s ^ 2 else 0) := by
        intro l
        by_cases hl : l = ⟨0, hd⟩
        · subst hl; simp [e]; ring
        · simp [e, hl]
      simp only [sqDist, this, Finset.sum_add_distrib, Finset.sum_ite_eq', Finset.mem_univ, if_true]
      ring
    have hsum : (fun s : ℝ => c j * Real.exp (-a * |s|)) = fun s => -∑ i ∈ Finset.univ.erase j, c i * Real.exp (-(a * Real.sqrt (sqDist (x i) (x j + s • e)))) := by
      funext s
      have h1 := h (x j + s • e)
      rw [← Finset.add_sum_erase _ _ (Finset.mem_univ j), hsq j s] at h1
      have h2 : sqDist (x j) (x j) - 2 * s * (x j ⟨0, hd⟩ - x j ⟨0, hd⟩) + s ^ 2 = s ^ 2 := by simp [sqDist]
      rw [h2, Real.sqrt_sq_eq_abs] at h1
      rw [neg_mul]
      linarith
    rw [hsum]
    refine DifferentiableAt.fun_neg (DifferentiableAt.fun_sum fun i hi => ?_)
    have hne : sqDist (x i) (x j) ≠ 0 := by
      intro h0
      have hij := Finset.ne_of_mem_erase hi
      refine hij (hx ?_)
      funext l
      have := (Finset.sum_eq_zero_iff_of_nonneg fun l _ => mul_self_nonneg (x i l - x j l)).1 h0 l (Finset.mem_univ l)
      have := mul_self_eq_zero.1 this
      linarith
    have h1 : DifferentiableAt ℝ (fun s : ℝ => sqDist (x i) (x j + s • e)) 0 := by
      simp only [hsq]
      fun_prop
    have h2 := h1.sqrt (by simpa using hne)
    exact ((h2.const_mul a).fun_neg.exp).const_mul _

theorem strict_exp_nrm1 {τ : ℝ} (hτ : 0 < τ) : IsStrict fun x y : Vec d => Real.exp (-(τ * nrm1 x y)) := by
  classical
  have hpsd : IsPSD fun x y : Vec d => Real.exp (-(τ * nrm1 x y)) := by
    have h1 : IsCND (fun x y : Vec d => ∑ i : Fin d, Real.sqrt ((x i - y i) ^ 2 + 0)) :=
      IsCND.sum Finset.univ fun (i : Fin d) _ => (isSqDist_real (fun x : Vec d => x i)).sqrt_isCND le_rfl
    refine ((h1.smul hτ.le).exp_neg).congr fun x y => ?_
    simp only [nrm1, add_zero, Real.sqrt_sq_eq_abs]
  refine isStrict_of_eval hpsd fun n x c hx h j => ?_
  have key : ∀ S : Finset (Fin d), ∀ y : Vec d,
      ∑ i with ∀ l ∈ S, x i l = x j l, c i * ∏ l ∈ Sᶜ, Real.exp (-τ * |x i l - y l|) = 0 := by
    intro S
    induction S using Finset.induction_on with
    | empty =>
      intro y
      have := h y
      simp only [nrm1, Finset.mul_sum, ← Finset.sum_neg_distrib, Real.exp_sum] at this
      simpa using this
    | insert l0 S hl0 ih =>
      intro y
      have h1 := sum_at_kink (Finset.univ.filter fun i => ∀ l ∈ S, x i l = x j l) (fun i => x i l0)
        (fun i => c i * ∏ l ∈ (insert l0 S)ᶜ, Real.exp (-τ * |x i l - y l|)) (neg_ne_zero.2 hτ.ne') (fun t => by
          rw [← ih (Function.update y l0 t)]
          refine Finset.sum_congr rfl fun i _ => ?_
          rw [Finset.compl_insert, ← Finset.mul_prod_erase Sᶜ _ (Finset.mem_compl.2 hl0), Function.update_self]
          have : ∏ l ∈ Sᶜ.erase l0, Real.exp (-τ * |x i l - Function.update y l0 t l|) = ∏ l ∈ Sᶜ.erase l0, Real.exp (-τ * |x i l - y l|) :=
            Finset.prod_congr rfl fun l hl => by rw [Function.update_of_ne (Finset.ne_of_mem_erase hl)]
          rw [this]
          ring) (x j l0)
      rw [Finset.filter_filter] at h1
      refine Eq.trans (Finset.sum_congr ?_ fun _ _ => rfl) h1
      ext i
      simp only [Finset.mem_filter, Finset.mem_univ, true_and, Finset.mem_insert, forall_eq_or_imp]
      tauto
  have h1 := key Finset.univ 0
  have h2 : (Finset.univ.filter fun i => ∀ l ∈ Finset.univ, x i l = x j l) = {j} := by
    ext i
    simp only [Finset.mem_filter, Finset.mem_univ, true_and, Finset.mem_singleton, forall_const]
    exact ⟨fun h => hx (funext h), fun h => by subst h; simp⟩
  rw [h2] at h1
  simpa using h1

end Strict

open Strict

section
variable {d : ℕ}

/-- Kernels that are positive on the diagonal. -/
def KExpr.PosDiag : KExpr d → Prop
  | .const c => 0 < c
  | .linear _ c => 0 < c
  | .polynomial _ c _ => 0 < c
  | .power k _ => k.PosDiag
  | .add a b => a.PosDiag ∨ b.PosDiag
  | .mul a b => a.PosDiag ∧ b.PosDiag
  | .stein _ _ => False
  | _ => True

/-- Kernels that tell all distributions apart: the radial ones, powers, sums with anything, products with a kernel that is positive on the diagonal (so the locally periodic kernel). -/
def KExpr.Separating : KExpr d → Prop
  | .exponential _ _ => True
  | .laplacian _ _ => True
  | .squaredExponential _ _ => True
  | .pcimq _ _ => True
  | .rationalQuadratic _ _ _ => True
  | .matern _ _ _ => True
  | .power k _ => k.Separating
  | .add a b => a.Separating ∨ b.Separating
  | .mul a b => (a.Separating ∧ b.PosDiag) ∨ (b.Separating ∧ a.PosDiag)
  | _ => False

theorem Strict.vdot_self_nonneg (x : Vec d) : 0 ≤ vdot x x := Finset.sum_nonneg fun i _ => mul_self_nonneg (x i)

theorem Strict.posDiag (K : KExpr d) (hc : K.check = .ok ()) (hd : K.PsdDomain) (hp : K.PosDiag) (x : Vec d) : 0 < K.sem.compute x x := by
  have hz : sqDist x x = 0 := by simp [sqDist]
  have hz1 : nrm1 x x = 0 := by simp [nrm1]
  induction K with
  | const c => exact hp
  | linear s c => exact add_pos_of_nonneg_of_pos (mul_nonneg (checkPos_ok (bind_ok hc).1).le (vdot_self_nonneg x)) hp
  | polynomial s c n =>
    exact mul_pos (checkPos_ok (bind_ok hc).1) (zpow_pos (add_pos_of_nonneg_of_pos (vdot_self_nonneg x) hp) _)
  | exponential l s => exact mul_pos (checkPos_ok (bind_ok hc).2) (Real.exp_pos _)
  | laplacian l s => exact mul_pos (checkPos_ok (bind_ok hc).2) (Real.exp_pos _)
  | squaredExponential l s => exact mul_pos (checkPos_ok (bind_ok hc).2) (Real.exp_pos _)
  | pcimq l s =>
    show 0 < s / Real.sqrt (1 + sqDist x x / (2 * l ^ 2))
    rw [hz]
    simpa using checkPos_ok (bind_ok hc).2
  | rationalQuadratic l s a =>
    show 0 < s * (1 + sqDist x x / (2 * a * l ^ 2)) ^ (-a)
    rw [hz]
    simpa using checkPos_ok (bind_ok (bind_ok hc).2).1
  | matern l s n =>
    have hl := checkPos_ok (bind_ok hc).1
    have hs := checkPos_ok (bind_ok (bind_ok hc).2).1
    show 0 < maternCompute l s n.toInt.toNat x x
    rw [maternCompute_eq, hz]
    have : 0 < matG n.toInt.toNat (Real.sqrt (2 * n.toInt.toNat + 1) / l * Real.sqrt (0 + 0)) := by
      rw [add_zero, Real.sqrt_zero, mul_zero]
      unfold matG bessQ
      refine mul_pos (Real.exp_pos _) (Finset.sum_pos' (fun j _ => mul_nonneg (bessC_pos _ j).le (by positivity)) ⟨0, by simp, ?_⟩)
      simpa using bessC_pos _ 0
    positivity
  | periodic l s p => exact mul_pos (checkPos_ok (bind_ok hc).2) (Real.exp_pos _)
  | poisson r s =>
    obtain ⟨hr0, hr1⟩ := poissonCheck_ok (bind_ok hc).1
    refine div_pos (checkPos_ok (bind_ok hc).2) ?_
    exact poisson_den_pos hr0 hr1 _
  | power k n ih => exact zpow_pos (ih (bind_ok hc).1 hd hp) _
  | add a b iha ihb =>
    have ha := (C08_psd a (bind_ok hc).1 hd.1).2 1 (fun _ => x) (fun _ => 1)
    have hb := (C08_psd b (bind_ok hc).2 hd.2).2 1 (fun _ => x) (fun _ => 1)
    simp only [Finset.univ_unique, Finset.sum_singleton, one_mul] at ha hb
    rcases hp with hp | hp
    · exact add_pos_of_pos_of_nonneg (iha (bind_ok hc).1 hd.1 hp) hb
    · exact add_pos_of_nonneg_of_pos ha (ihb (bind_ok hc).2 hd.2 hp)
  | mul a b iha ihb =>
    rw [mulSem_compute_eq]
    exact mul_pos (iha (bind_ok hc).1 hd.1 hp.1) (ihb (bind_ok hc).2 hd.2 hp.2)
  | stein k score => exact hp.elim

/-- **C87.** The kernels of the class are strictly positive definite in every dimension: on distinct points only the zero combination has norm zero. -/
theorem C87_strict (K : KExpr d) (hc : K.check = .ok ()) (hd : K.PsdDomain) (hs : K.Separating) : IsStrict K.sem.compute := by
  induction K with
  | exponential l s =>
    have hl := checkPos_ok (bind_ok hc).1
    refine ((strict_exp_nrm (a := 1 / (2 * l ^ 2)) (by positivity)).smul (checkPos_ok (bind_ok hc).2)).congr fun x y => ?_
    simp only [KExpr.sem, exponentialSem, nrm_eq]
    congr 2
    ring
  | laplacian l s =>
    have hl := checkPos_ok (bind_ok hc).1
    refine ((strict_exp_nrm1 (τ := 1 / (2 * l ^ 2)) (by positivity)).smul (checkPos_ok (bind_ok hc).2)).congr fun x y => ?_
    simp only [KExpr.sem, laplacianSem]
    congr 2
    ring
  | squaredExponential l s =>
    have hl := checkPos_ok (bind_ok hc).1
    refine ((strictSqDist.2 (1 / (2 * l ^ 2)) (by positivity)).smul (checkPos_ok (bind_ok hc).2)).congr fun x y => ?_
    simp only [KExpr.sem, squaredExponentialSem]
    congr 2
    ring
  | pcimq l s =>
    have hl := checkPos_ok (bind_ok hc).1
    refine (((strictSqDist.scale (r := 1 / (2 * l ^ 2)) (by positivity)).inv_pow zero_lt_one
      (p := 1 / 2) (by norm_num)).smul (checkPos_ok (bind_ok hc).2)).congr fun x y => ?_
    have hp : 0 ≤ 1 + 1 / (2 * l ^ 2) * sqDist x y := by
      have := sqDist_nonneg x y
      positivity
    rw [Real.rpow_neg hp, ← Real.sqrt_eq_rpow]
    simp only [KExpr.sem, pcimqSem]
    rw [div_eq_mul_inv s, show 1 + sqDist x y / (2 * l ^ 2) = 1 + 1 / (2 * l ^ 2) * sqDist x y by ring]
  | rationalQuadratic l s a =>
    have hl := checkPos_ok (bind_ok hc).1
    have ha : 0 < a := lt_of_le_of_ne (checkNonneg_ok (bind_ok (bind_ok hc).2).2) (Ne.symm hd)
    refine (((strictSqDist.scale (r := 1 / (2 * a * l ^ 2)) (by positivity)).inv_pow zero_lt_one ha).smul
      (checkPos_ok (bind_ok (bind_ok hc).2).1)).congr fun x y => ?_
    simp only [KExpr.sem, rationalQuadraticSem]
    congr 2
    ring
  | matern l s n =>
    have hl := checkPos_ok (bind_ok hc).1
    have hs := checkPos_ok (bind_ok (bind_ok hc).2).1
    have ha : 0 < Real.sqrt (2 * n.toInt.toNat + 1) / l := by positivity
    refine (((isSqDist_sqDist (d := d)).matern_strict ha (strict_exp_nrm ha) n.toInt.toNat).smul
      (a := s ^ 2 * n.toInt.toNat.factorial / (2 * n.toInt.toNat).factorial) (by positivity)).congr
      fun x y => maternCompute_eq l s _ x y
  | power k n ih =>
    have hn := checkIntGe_ok (bind_ok hc).2
    obtain ⟨p, hp⟩ : ∃ p : ℕ, n.toInt = ((p + 1 : ℕ) : ℤ) := ⟨(n.toInt - 1).toNat, by omega⟩
    exact ((ih (bind_ok hc).1 hd hs).pow p).congr fun x y => by simp only [KExpr.sem, powerSem, hp, zpow_natCast]
  | add a b iha ihb =>
    rcases hs with hs | hs
    · exact (iha (bind_ok hc).1 hd.1 hs).add (C08_psd b (bind_ok hc).2 hd.2)
    · exact ((ihb (bind_ok hc).2 hd.2 hs).add (C08_psd a (bind_ok hc).1 hd.1)).congr fun x y => add_comm _ _
  | mul a b iha ihb =>
    rcases hs with hs | hs
    · exact ((iha (bind_ok hc).1 hd.1 hs.1).mul (C08_psd b (bind_ok hc).2 hd.2) (posDiag b (bind_ok hc).2 hd.2 hs.2)).congr fun x y => mulSem_compute_eq a b x y
    · exact ((ihb (bind_ok hc).2 hd.2 hs.1).mul (C08_psd a (bind_ok hc).1 hd.1) (posDiag a (bind_ok hc).1 hd.1 hs.2)).congr fun x y => by
        rw [mulSem_compute_eq, mul_comm]
  | _ => exact hs.elim

/-- The locally periodic kernel, a sum with a linear kernel, a power. -/
example : IsStrict (KExpr.power (.add (.linear 1 0) (.mul (.periodic 1 1 2) (.matern 1 2 (.int 2)))) (.int 3) : KExpr 1).sem.compute :=
  C87_strict _ (by norm_num [KExpr.check, checkPos, checkNonneg, checkIntGe, bind, Except.bind])
    (by norm_num [KExpr.PsdDomain]) (by simp [KExpr.Separating, KExpr.PosDiag])

end

/-! ### The discrepancy vanishes only for equal distributions -/

section
variable {X : Type}

theorem Strict.avg_eq {n : ℕ} (x : Fin n → X) (w : Fin n → ℝ) [DecidableEq X] (S : Finset X) (hS : ∀ i, x i ∈ S) (f : X → ℝ) :
    avg w (fun i => f (x i)) = ∑ a ∈ S, massAt x w a / (∑ i, w i) * f a := by
  simp only [avg, massAt, div_mul_eq_mul_div]
  rw [← Finset.sum_div]
  congr 1
  simp only [Finset.sum_mul]
  rw [Finset.sum_comm]
  refine Finset.sum_congr rfl (fun i _ => ?_)
  rw [Finset.sum_eq_single (x i)]
  · simp
  · intro b _ hb
    rw [if_neg (fun h => hb h.symm)]
    simp
  · exact fun h => absurd (hS i) h

/-- The squared discrepancy as a quadratic form in the difference of the two distributions. -/
theorem Strict.mmdSq_mass (k : X → X → ℝ) (hk : ∀ a b, k a b = k b a) {n m : ℕ} (x : Fin n → X) (wx : Fin n → ℝ) (y : Fin m → X) (wy : Fin m → ℝ)
    [DecidableEq X] (S : Finset X) (hx : ∀ i, x i ∈ S) (hy : ∀ i, y i ∈ S) :
    mmdSq k x wx y wy = ∑ a ∈ S, ∑ b ∈ S, (massAt x wx a / (∑ i, wx i) - massAt y wy a / ∑ i, wy i) *
      (massAt x wx b / (∑ i, wx i) - massAt y wy b / ∑ i, wy i) * k a b := by
  unfold mmdSq
  have e1 : ∀ a, avg wx (fun j => k a (x j)) = ∑ b ∈ S, massAt x wx b / (∑ i, wx i) * k a b := fun a => avg_eq x wx S hx _
  have e2 : ∀ a, avg wy (fun j => k a (y j)) = ∑ b ∈ S, massAt y wy b / (∑ i, wy i) * k a b := fun a => avg_eq y wy S hy _
  simp only [e1, e2]
  rw [avg_eq x wx S hx (fun a => ∑ b ∈ S, massAt x wx b / (∑ i, wx i) * k a b), avg_eq x wx S hx (fun a => ∑ b ∈ S, massAt y wy b / (∑ i, wy i) * k a b),
    avg_eq y wy S hy (fun a => ∑ b ∈ S, massAt y wy b / (∑ i, wy i) * k a b)]
  have e3 : ∑ a ∈ S, massAt x wx a / (∑ i, wx i) * ∑ b ∈ S, massAt y wy b / (∑ i, wy i) * k a b =
      ∑ a ∈ S, massAt y wy a / (∑ i, wy i) * ∑ b ∈ S, massAt x wx b / (∑ i, wx i) * k a b := by
    simp only [Finset.mul_sum]
    rw [Finset.sum_comm]
    exact Finset.sum_congr rfl fun a _ => Finset.sum_congr rfl fun b _ => by rw [hk b a]; ring
  rw [two_mul]
  nth_rw 2 [e3]
  simp only [Finset.mul_sum, ← Finset.sum_sub_distrib, ← Finset.sum_add_distrib]
  exact Finset.sum_congr rfl fun a _ => Finset.sum_congr rfl fun b _ => by ring

theorem Strict.massAt_zero {n : ℕ} (x : Fin n → X) (w : Fin n → ℝ) (a : X) (h : ∀ i, x i ≠ a) : massAt x w a = 0 := by
  unfold massAt
  exact Finset.sum_eq_zero fun i _ => if_neg (h i)

theorem Strict.massAt_single {n : ℕ} (x : Fin n → X) (w : Fin n → ℝ) (j : Fin n) (h : ∀ i, x i = x j → i = j) : massAt x w (x j) = w j := by
  unfold massAt
  refine (Finset.sum_eq_single j (fun i _ hi => if_neg fun e => hi (h i e)) fun hj => absurd (Finset.mem_univ j) hj).trans ?_
  exact if_pos rfl

/-- **C87.** With a strictly positive definite kernel the computed discrepancy is zero exactly if the two weighted data sets put the same share of their weight on every point. -/
theorem C87_mmd_zero_iff [Zero X] (big : ℝ) (k : X → X → ℝ) (hk : IsStrict k) {n m : ℕ} (hn : 0 < n) (hm : 0 < m) (x : Data n X ℝ) (y : Data m X ℝ)
    (hx : ∑ i, x.weights i ≠ 0) (hy : ∑ i, y.weights i ≠ 0) (bs : PyTree (Option ℤ)) (hbs : ValidBlock bs) :
    mmdCompute big k x y bs = .ok 0 ↔ ∀ a, massAt x.data x.weights a / ∑ i, x.weights i = massAt y.data y.weights a / ∑ i, y.weights i := by
  classical
  rw [C07_compute big k hn hm x y hx hy bs hbs, Except.ok.injEq]
  have h0 := (C07_rkhs_distance big k hk.1 hn hm x y hx hy bs hbs).1
  rw [max_eq_right h0, Real.sqrt_eq_zero h0]
  let S : Finset X := Finset.univ.image x.data ∪ Finset.univ.image y.data
  have hxS : ∀ i, x.data i ∈ S := fun i => Finset.mem_union_left _ (Finset.mem_image_of_mem _ (Finset.mem_univ i))
  have hyS : ∀ i, y.data i ∈ S := fun i => Finset.mem_union_right _ (Finset.mem_image_of_mem _ (Finset.mem_univ i))
  rw [mmdSq_mass k hk.1.1 _ _ _ _ S hxS hyS]
  constructor
  · intro h a
    by_cases ha : a ∈ S
    · have := hk.finite (fun s : S => (s : X)) Subtype.val_injective
        (fun s => massAt x.data x.weights s / (∑ i, x.weights i) - massAt y.data y.weights s / ∑ i, y.weights i) (by
          rw [← h, ← Finset.sum_coe_sort S]
          exact Finset.sum_congr rfl fun a _ => Finset.sum_coe_sort S (fun b => (massAt x.data x.weights a / (∑ i, x.weights i) - massAt y.data y.weights a / ∑ i, y.weights i) *
            (massAt x.data x.weights b / (∑ i, x.weights i) - massAt y.data y.weights b / ∑ i, y.weights i) * k a b)) ⟨a, ha⟩
      exact sub_eq_zero.1 this
    · rw [massAt_zero _ _ a fun i hi => ha (hi ▸ hxS i), massAt_zero _ _ a fun i hi => ha (hi ▸ hyS i), zero_div, zero_div]
  · intro h
    exact Finset.sum_eq_zero fun a _ => Finset.sum_eq_zero fun b _ => by rw [h a, sub_self, zero_mul, zero_mul]

example (big : ℝ) : mmdCompute big (KExpr.squaredExponential 1 1 : KExpr 1).sem.compute (⟨fun i _ => ((i : ℕ) : ℝ), fun _ => 1⟩ : Data 3 (Vec 1) ℝ)
    (⟨fun i _ => ((i : ℕ) : ℝ), fun _ => 1⟩ : Data 2 (Vec 1) ℝ) (.leaf none) ≠ .ok 0 := by
  intro h
  rw [C87_mmd_zero_iff big _ (C87_strict (.squaredExponential 1 1 : KExpr 1) (by norm_num [KExpr.check, checkPos, bind, Except.bind]) trivial trivial) (by norm_num) (by norm_num) _ _
    (by norm_num) (by norm_num) _ (Or.inl rfl)] at h
  have := h fun _ => 2
  rw [massAt_zero (⟨fun i _ => ((i : ℕ) : ℝ), fun _ => 1⟩ : Data 2 (Vec 1) ℝ).data _ _ (fun i hi => by
    have := congrFun hi 0
    fin_cases i <;> norm_num at this)] at this
  have h1 : massAt (⟨fun i _ => ((i : ℕ) : ℝ), fun _ => 1⟩ : Data 3 (Vec 1) ℝ).data (fun _ => (1 : ℝ)) (fun _ => 2) = 1 :=
    massAt_single (fun (i : Fin 3) (_ : Fin 1) => ((i : ℕ) : ℝ)) (fun _ => (1 : ℝ)) 2 fun i hi => by
      have := congrFun hi 0
      exact Fin.ext (Nat.cast_injective this)
  rw [h1] at this
  norm_num at this

/-- **C87.** A coreset of rows of distinct data of equal weight has discrepancy zero exactly if every row is chosen equally often; without repeats: exactly if nothing is left out. -/
theorem C87_coreset [Zero X] (big : ℝ) (k : X → X → ℝ) (hk : IsStrict k) {n m : ℕ} (hn : 0 < n) (hm : 0 < m) (x : Fin n → X) (hx : Function.Injective x) (f : Fin m → Fin n)
    (bs : PyTree (Option ℤ)) (hbs : ValidBlock bs) :
    (mmdCompute big k (Data.ofArray (K := ℝ) x) (Data.ofArray fun t => x (f t)) bs = .ok 0 ↔ ∀ j, n * (Finset.univ.filter fun t => f t = j).card = m) ∧
    (Function.Injective f → (mmdCompute big k (Data.ofArray (K := ℝ) x) (Data.ofArray fun t => x (f t)) bs = .ok 0 ↔ m = n)) := by
  classical
  have hn' : (n : ℝ) ≠ 0 := by exact_mod_cast hn.ne'
  have hm' : (m : ℝ) ≠ 0 := by exact_mod_cast hm.ne'
  have h1 : mmdCompute big k (Data.ofArray (K := ℝ) x) (Data.ofArray fun t => x (f t)) bs = .ok 0 ↔ ∀ j, n * (Finset.univ.filter fun t => f t = j).card = m := by
    rw [C87_mmd_zero_iff big k hk hn hm _ _ (by simpa [Data.ofArray] using hn.ne') (by simpa [Data.ofArray] using hm.ne') bs hbs]
    simp only [Data.ofArray, Finset.sum_const, Finset.card_univ, Fintype.card_fin, nsmul_eq_mul, mul_one]
    have e1 : ∀ j, massAt x (fun _ => (1 : ℝ)) (x j) = 1 := by
      intro j
      unfold massAt
      rw [Finset.sum_eq_single j (fun i _ hi => if_neg fun h => hi (hx h)) (by simp), if_pos rfl]
    have e2 : ∀ j, massAt (fun t => x (f t)) (fun _ => (1 : ℝ)) (x j) = (Finset.univ.filter fun t => f t = j).card := by
      intro j
      unfold massAt
      rw [Finset.sum_boole]
      congr 2
      ext t
      simp [hx.eq_iff]
    constructor
    · intro h j
      have := h (x j)
      rw [e1, e2, div_eq_div_iff hn' hm', one_mul, mul_comm] at this
      exact_mod_cast this.symm
    · intro h a
      by_cases ha : ∃ j, x j = a
      · obtain ⟨j, rfl⟩ := ha
        rw [e1, e2, div_eq_div_iff hn' hm', one_mul, mul_comm]
        exact_mod_cast (h j).symm
      · push Not at ha
        rw [massAt_zero _ _ a ha, massAt_zero _ _ a fun t => ha (f t), zero_div, zero_div]
  refine ⟨h1, fun hf => h1.trans ⟨fun h => ?_, ?_⟩⟩
  · have h2 : ∀ j, (Finset.univ.filter fun t => f t = j).card ≤ 1 := fun j =>
      Finset.card_le_one.2 fun a ha b hb => hf ((Finset.mem_filter.1 ha).2.trans (Finset.mem_filter.1 hb).2.symm)
    have h3 := h ⟨0, hn⟩
    have h4 : (Finset.univ.filter fun t => f t = ⟨0, hn⟩).card = 1 := by
      have := h2 ⟨0, hn⟩
      interval_cases hc : (Finset.univ.filter fun t => f t = ⟨0, hn⟩).card
      · omega
      · rfl
    rw [h4] at h3
    omega
  · rintro rfl j
    have hs : Function.Surjective f := Finite.surjective_of_injective hf
    obtain ⟨t, rfl⟩ := hs j
    have : (Finset.univ.filter fun s => f s = f t) = {t} := by
      ext s; simp [hf.eq_iff]
    rw [this, Finset.card_singleton, mul_one]

example (big : ℝ) (f : Fin 2 → Fin 3) : mmdCompute big (KExpr.laplacian 1 1 : KExpr 1).sem.compute (Data.ofArray (K := ℝ) fun (i : Fin 3) (_ : Fin 1) => ((i : ℕ) : ℝ))
    (Data.ofArray fun t (_ : Fin 1) => ((f t : ℕ) : ℝ)) (.leaf none) ≠ .ok 0 := by
  intro h
  have := ((C87_coreset big _ (C87_strict (.laplacian 1 1 : KExpr 1) (by norm_num [KExpr.check, checkPos, bind, Except.bind]) trivial trivial) (by norm_num) (by norm_num)
    (fun (i : Fin 3) (_ : Fin 1) => ((i : ℕ) : ℝ)) (fun a b h => by simpa [Fin.ext_iff] using congrFun h 0) f _ (Or.inl rfl)).1.1 h) 0
  omega

end

/-! ### Gram matrices of distinct rows -/

section
variable {X : Type}

theorem Strict.strictPD {k : X → X → ℝ} (hk : IsStrict k) {n : ℕ} (x : Fin n → X) (hx : Function.Injective x) (eps : ℝ) (he : 0 ≤ eps) : StrictPD k eps x := by
  rintro v ⟨i, hi⟩
  have h1 : 0 < ∑ i, ∑ j, v i * v j * k (x i) (x j) := lt_of_le_of_ne (hk.1.2 n x v) fun h => hi (hk.2 n x v hx h.symm i)
  have h2 : 0 ≤ eps * ∑ i, v i ^ 2 := mul_nonneg he (Finset.sum_nonneg fun i _ => sq_nonneg _)
  linarith

theorem Strict.indep {k : X → X → ℝ} (hk : IsStrict k) {m : ℕ} (x : Fin m → X) (hx : Function.Injective x) : IndepColumns (fun i j => k (x i) (x j)) := by
  intro z hz
  refine hk.2 m x z hx ?_
  refine Finset.sum_eq_zero fun i _ => ?_
  have : ∑ j, z i * z j * k (x i) (x j) = z i * ∑ j, k (x i) (x j) * z j := by
    rw [Finset.mul_sum]
    exact Finset.sum_congr rfl fun j _ => by ring
  rw [this, hz, mul_zero]

/-- **C87.** For distinct rows the hypotheses on Gram matrices made elsewhere hold without regularisation: the matrix is invertible, and the weights of Bayesian quadrature on distinct points are the only best
ones. -/
theorem C87_gram {Y : Type} [Zero X] (solve : LinSolve ℝ) (hsolve : SolveContract solve) (big : ℝ) (k : X → X → ℝ) (hk : IsStrict k) {n m : ℕ} (hn : 0 < n) (hm : 0 < m) (data : Data n X ℝ)
    (points : Data m X ℝ) (hp : Function.Injective points.data) (bs : PyTree (Option ℤ)) (hbs : ValidBlock bs) :
    IsUnit (Matrix.of fun i j => k (points.data i) (points.data j)) ∧ IndepColumns (fun i j => k (points.data i) (points.data j)) ∧
    ∃ v, sbqSolve (Y := Y) solve big k ⟨data, none⟩ ⟨points, none⟩ 0 bs = .ok v ∧ ∀ u : Fin m → ℝ, u ≠ v →
      distSq k data.data (fun _ => 1 / (n : ℝ)) points.data v < distSq k data.data (fun _ => 1 / (n : ℝ)) points.data u := by
  have hcol := indep hk points.data hp
  refine ⟨?_, hcol, ?_⟩
  · rw [← Matrix.mulVec_injective_iff_isUnit]
    intro a b hab
    have : ∀ j, a j - b j = 0 := hcol (fun j => a j - b j) fun i => by
      have := congrFun hab i
      simp only [Matrix.mulVec, dotProduct, Matrix.of_apply] at this
      simp only [mul_sub, Finset.sum_sub_distrib, this, sub_self]
    funext j
    exact sub_eq_zero.1 (this j)
  · obtain ⟨v, h1, h2⟩ := C30_optimal (Y := Y) solve hsolve big k hk.1.1 hn hm ⟨data, none⟩ ⟨points, none⟩ rfl rfl 0 bs hbs (strictPD hk points.data hp 0 le_rfl)
    refine ⟨v, h1, fun u hu => ?_⟩
    simpa using h2 u hu

example (solve : LinSolve ℝ) (hsolve : SolveContract solve) (big : ℝ) (data : Data 5 (Vec 2) ℝ) :
    ∃ v, sbqSolve (Y := ℝ) solve big (KExpr.pcimq 1 1 : KExpr 2).sem.compute ⟨data, none⟩ ⟨⟨fun i _ => ((i : ℕ) : ℝ), fun _ => 1⟩, none⟩ 0 (.leaf none) = .ok v ∧
      ∀ u : Fin 3 → ℝ, u ≠ v → distSq (KExpr.pcimq 1 1 : KExpr 2).sem.compute data.data (fun _ => 1 / ((5 : ℕ) : ℝ)) (fun (i : Fin 3) _ => ((i : ℕ) : ℝ)) v <
        distSq (KExpr.pcimq 1 1 : KExpr 2).sem.compute data.data (fun _ => 1 / ((5 : ℕ) : ℝ)) (fun (i : Fin 3) _ => ((i : ℕ) : ℝ)) u :=
  (C87_gram solve hsolve big _ (C87_strict (.pcimq 1 1 : KExpr 2) (by norm_num [KExpr.check, checkPos, bind, Except.bind]) trivial trivial) (by norm_num) (by norm_num) data
    ⟨fun (i : Fin 3) _ => ((i : ℕ) : ℝ), fun _ => 1⟩ (fun a b h => Fin.ext (Nat.cast_injective (congrFun h 0))) (.leaf none) (Or.inl rfl)).2.2

/-- **C87.** For distinct rows the Nystroem approximation with as many training as kernel points is the mean over the points drawn, and exact if all are drawn; so is the Monte Carlo approximation. -/
theorem C87_approximation [Zero X] {draw : IndexDraw} (hdraw : IndexDrawContract draw) {lstsq : RectLstsq ℝ} (hl : RectLstsqContract lstsq) (big : ℝ) (k : X → X → ℝ) (hk : IsStrict k)
    {n m : ℕ} [NeZero n] (hm : 0 < m) (hmn : m ≤ n) (x : Fin n → X) (hx : Function.Injective x) :
    (∃ S : Fin m → Fin n, Function.Injective S ∧ (∀ s, draw n m s = ((S s : ℕ) : ℤ)) ∧ nystromRowMean draw lstsq big k m m x = .ok (fun i => (∑ j, k (x i) (x (S j))) / m)) ∧
    nystromRowMean draw lstsq big k n n x = .ok (fun i => (∑ j, k (x i) (x j)) / n) ∧ monteCarloRowMean draw lstsq big k (n + 1) n x = .ok (fun i => (∑ j, k (x i) (x j)) / n) := by
  have hr : rowMeans k x = fun i => (∑ j, k (x i) (x j)) / (n : ℝ) := by
    funext i
    simp only [rowMeans]
    congr 1
    exact Finset.sum_congr rfl fun j _ => hk.1.1 _ _
  refine ⟨?_, hr ▸ C32_nystrom_full hdraw hl big k hk.1.1 x (indep hk x hx), hr ▸ C32_monte_carlo_full hdraw hl big k hk.1.1 x (indep hk x hx)⟩
  obtain ⟨T, hT, hdT⟩ := hdraw n m hmn
  refine C32_nystrom_subset_mean hdraw hl big k hk.1.1 hm hmn x fun S hS => indep hk (fun s => x (S s)) (hx.comp ?_)
  have : S = T := by
    funext s
    have := (hS s).symm.trans (hdT s)
    exact Fin.ext (by exact_mod_cast this)
  rwa [this]

example {draw : IndexDraw} (hdraw : IndexDrawContract draw) {lstsq : RectLstsq ℝ} (hl : RectLstsqContract lstsq) (big : ℝ) (x : Fin 7 → Vec 2) (hx : Function.Injective x) :
    nystromRowMean draw lstsq big (KExpr.laplacian 1 1 : KExpr 2).sem.compute 7 7 x = .ok (fun i => (∑ j, (KExpr.laplacian 1 1 : KExpr 2).sem.compute (x i) (x j)) / (7 : ℕ)) :=
  (C87_approximation hdraw hl big _ (C87_strict (.laplacian 1 1 : KExpr 2) (by norm_num [KExpr.check, checkPos, bind, Except.bind]) trivial trivial)
    (m := 7) (by norm_num) le_rfl x hx).2.1

/-- **C87.** The rank of the Gram matrix is the number of different rows. -/
theorem C87_rank (k : X → X → ℝ) (hk : IsStrict k) {n : ℕ} (x : Fin n → X) :
    (Matrix.of fun i j => k (x i) (x j) : Matrix (Fin n) (Fin n) ℝ).rank = (Set.range x).ncard := by
  classical
  have hr : Set.range x = ((Finset.univ.image x : Finset X) : Set X) := by ext; simp
  rw [hr, Set.ncard_coe_finset]
  rw [Matrix.rank_eq_finrank_span_cols]
  let S : Finset X := Finset.univ.image x
  have hrange : Set.range (Matrix.of fun i j => k (x i) (x j)).col = Set.range fun (a : S) (i : Fin n) => k (x i) a := by
    ext v
    constructor
    · rintro ⟨j, rfl⟩
      exact ⟨⟨x j, Finset.mem_image_of_mem _ (Finset.mem_univ j)⟩, rfl⟩
    · rintro ⟨⟨a, ha⟩, rfl⟩
      obtain ⟨j, -, rfl⟩ := Finset.mem_image.1 ha
      exact ⟨j, rfl⟩
  rw [hrange, finrank_span_eq_card, Fintype.card_coe]
  rw [Fintype.linearIndependent_iff]
  intro g hg a
  refine hk.finite (fun s : S => (s : X)) Subtype.val_injective g ?_ a
  refine Finset.sum_eq_zero fun s _ => ?_
  obtain ⟨i, -, hi⟩ := Finset.mem_image.1 s.2
  have h1 := congrFun hg i
  simp only [Finset.sum_apply, Pi.smul_apply, smul_eq_mul, Pi.zero_apply] at h1
  have : ∑ j : S, g s * g j * k s j = g s * ∑ j : S, g j * k (x i) j := by
    rw [Finset.mul_sum, hi]
    exact Finset.sum_congr rfl fun j _ => by ring
  rw [this, h1, mul_zero]

/-- Four rows, two of them equal: rank three. -/
example : (Matrix.of fun i j => (KExpr.exponential 1 1 : KExpr 1).sem.compute (fun _ => ((![0, 1, 1, 2] : Fin 4 → ℝ) i)) fun _ => ((![0, 1, 1, 2] : Fin 4 → ℝ) j) :
    Matrix (Fin 4) (Fin 4) ℝ).rank = 3 := by
  rw [C87_rank _ (C87_strict (.exponential 1 1 : KExpr 1) (by norm_num [KExpr.check, checkPos, bind, Except.bind]) trivial trivial)
    (fun i (_ : Fin 1) => (![0, 1, 1, 2] : Fin 4 → ℝ) i)]
  have : (Set.range fun i (_ : Fin 1) => (![0, 1, 1, 2] : Fin 4 → ℝ) i) = {fun _ => (0 : ℝ), fun _ => 1, fun _ => 2} := by
    ext v
    simp only [Set.mem_range, Set.mem_insert_iff, Set.mem_singleton_iff]
    constructor
    · rintro ⟨i, rfl⟩
      fin_cases i <;> simp
    · rintro (rfl | rfl | rfl)
      exacts [⟨0, rfl⟩, ⟨1, rfl⟩, ⟨3, rfl⟩]
  rw [this, Set.ncard_eq_three]
  exact ⟨_, _, _, fun h => by simpa using congrFun h 0, fun h => by simpa using congrFun h 0, fun h => by simpa using congrFun h 0, rfl⟩

/-- **C87.** Randomly pivoted Cholesky with such a kernel: the approximation is exact exactly if at least as many points are asked for as there are different rows; up to that number all rows
selected are different from each other. -/
theorem C87_pivots {n size : ℕ} [NeZero n] (k : X → X → ℝ) (hk : IsStrict k) (x : Fin n → X) (unique : Bool) (draw : PivotDraw n ℝ) (hd : PivotContract draw) (hs : size ≤ n) :
    ∃ (f : Fin size → Fin n) (state : Fin n → Ext ℝ) (A : Fin n → Fin n → ℝ), rpcReduce Real.sqrt k x unique draw size none = .ok (⟨fun t => ((f t : ℕ) : ℤ), fun _ => 1⟩, state) ∧
      IsNystrom (fun i j => k (x i) (x j)) {j | ∃ t, ((f t : ℕ) : ℤ) = (j : ℤ)} A ∧ ((A = fun i j => k (x i) (x j)) ↔ (Set.range x).ncard ≤ size) ∧
      (size ≤ (Set.range x).ncard → Function.Injective fun t => x (f t)) := by
  obtain ⟨f, state, -, hf⟩ := C16_distinct Real.sqrt k x (fun j => (hk.diag_pos _).le) unique draw hd hs
  obtain ⟨c, state', A, hok, hA, -, hiff⟩ := C53_rank hk.1 x unique draw hd hs
  rw [hf] at hok
  simp only [Except.ok.injEq, Prod.mk.injEq] at hok
  obtain ⟨rfl, rfl⟩ := hok
  rw [C87_rank k hk x] at hiff
  refine ⟨f, state, A, hf, hA, hiff, fun hle a b hab => ?_⟩
  rw [← C87_rank k hk x] at hle
  have hpd := (C75_invertible hk.1 x unique draw hd hs hf).2 hle
  by_contra hne
  have := hpd (fun t => if t = a then 1 else if t = b then -1 else 0) ⟨a, by simp⟩
  rw [zero_mul, add_zero] at this
  have h2 : ∀ i, ∑ j, (if i = a then (1 : ℝ) else if i = b then -1 else 0) * (if j = a then 1 else if j = b then -1 else 0) * k (x (f i)) (x (f j)) =
      (if i = a then (1 : ℝ) else if i = b then -1 else 0) * (k (x (f i)) (x (f a)) - k (x (f i)) (x (f b))) := by
    intro i
    rw [← Finset.add_sum_erase _ _ (Finset.mem_univ a), ← Finset.add_sum_erase _ _ (Finset.mem_erase.2 ⟨Ne.symm hne, Finset.mem_univ b⟩)]
    rw [Finset.sum_eq_zero fun j hj => ?_]
    · rw [if_pos (rfl : a = a), if_neg (Ne.symm hne : ¬ b = a), if_pos (rfl : b = b)]
      ring
    · have h3 := Finset.mem_erase.1 hj
      rw [if_neg (Finset.mem_erase.1 h3.2).1, if_neg h3.1, mul_zero, zero_mul]
  simp only [h2] at this
  have h3 : x (f a) = x (f b) := hab
  simp [h3] at this

example (draw : PivotDraw 5 ℝ) (hd : PivotContract draw) (x : Fin 5 → Vec 2) (hx : Function.Injective x) :
    ∃ (f : Fin 3 → Fin 5) (state : Fin 5 → Ext ℝ), rpcReduce Real.sqrt (KExpr.matern 1 1 (.int 1) : KExpr 2).sem.compute x false draw 3 none =
      .ok (⟨fun t => ((f t : ℕ) : ℤ), fun _ => 1⟩, state) ∧ Function.Injective fun t => x (f t) := by
  obtain ⟨f, state, -, h1, -, -, h2⟩ := C87_pivots _ (C87_strict (.matern 1 1 (.int 1) : KExpr 2)
    (by norm_num [KExpr.check, checkPos, checkIntGe, bind, Except.bind]) trivial trivial) x false draw hd (size := 3) (by norm_num)
  exact ⟨f, state, h1, h2 (by
    rw [← Set.image_univ, Set.ncard_image_of_injective _ hx, Set.ncard_univ, Nat.card_fin]
    norm_num)⟩

end

/-! ### Kernels that do not tell distributions apart -/

section
variable {d : ℕ}

/-- **C87.** With the linear kernel the discrepancy is the distance of the weighted means: it is zero exactly if they agree. -/
theorem C87_linear (big s c : ℝ) (hs : 0 < s) {n m : ℕ} (hn : 0 < n) (hm : 0 < m) (x : Data n (Vec d) ℝ) (y : Data m (Vec d) ℝ)
    (hx : ∑ i, x.weights i ≠ 0) (hy : ∑ i, y.weights i ≠ 0) (bs : PyTree (Option ℤ)) (hbs : ValidBlock bs) :
    mmdCompute big (KExpr.linear s c : KExpr d).sem.compute x y bs =
      .ok (Real.sqrt (s * ∑ l, (avg x.weights (fun i => x.data i l) - avg y.weights (fun i => y.data i l)) ^ 2)) ∧
    (mmdCompute big (KExpr.linear s c : KExpr d).sem.compute x y bs = .ok 0 ↔ ∀ l, avg x.weights (fun i => x.data i l) = avg y.weights (fun i => y.data i l)) := by
  have key : ∀ {p q : ℕ} (a : Fin p → Vec d) (wa : Fin p → ℝ) (b : Fin q → Vec d) (wb : Fin q → ℝ), ∑ i, wa i ≠ 0 → ∑ i, wb i ≠ 0 →
      avg wa (fun i => avg wb fun j => s * vdot (a i) (b j) + c) = s * ∑ l, avg wa (fun i => a i l) * avg wb (fun j => b j l) + c := by
    intro p q a wa b wb ha hb
    have e1 : ∀ {r : ℕ} (w : Fin r → ℝ), ∑ i, w i ≠ 0 → ∀ (f : Fin r → ℝ), avg w (fun i => s * f i + c) = s * avg w f + c := by
      intro r w hw f
      unfold avg
      rw [mul_div_assoc', div_add' _ _ _ hw]
      congr 1
      rw [Finset.mul_sum, Finset.mul_sum, ← Finset.sum_add_distrib]
      exact Finset.sum_congr rfl fun i _ => by ring
    have e2 : ∀ i, avg wb (fun j => vdot (a i) (b j)) = ∑ l, a i l * avg wb fun j => b j l := by
      intro i
      simp only [avg, vdot, Finset.mul_sum, mul_div_assoc', Finset.sum_div]
      rw [Finset.sum_comm]
      exact Finset.sum_congr rfl fun l _ => Finset.sum_congr rfl fun j _ => by ring
    simp only [e1 wb hb, e2]
    rw [e1 wa ha]
    congr 2
    have e3 : ∀ (f : Fin d → ℝ), avg wa (fun i => ∑ l, a i l * f l) = ∑ l, avg wa (fun i => a i l) * f l := by
      intro f
      simp only [avg, Finset.mul_sum, Finset.sum_div, Finset.sum_mul]
      rw [Finset.sum_comm]
      exact Finset.sum_congr rfl fun l _ => Finset.sum_congr rfl fun i _ => by ring
    exact e3 _
  have hm2 : mmdSq (KExpr.linear s c : KExpr d).sem.compute x.data x.weights y.data y.weights =
      s * ∑ l, (avg x.weights (fun i => x.data i l) - avg y.weights (fun i => y.data i l)) ^ 2 := by
    have e0 : (KExpr.linear s c : KExpr d).sem.compute = fun a b => s * vdot a b + c := rfl
    unfold mmdSq
    rw [e0]
    beta_reduce
    rw [key _ _ _ _ hx hx, key _ _ _ _ hx hy, key _ _ _ _ hy hy]
    have : ∑ l, (avg x.weights (fun i => x.data i l) - avg y.weights (fun i => y.data i l)) ^ 2 =
        ∑ l, avg x.weights (fun i => x.data i l) * avg x.weights (fun i => x.data i l) - 2 * (∑ l, avg x.weights (fun i => x.data i l) * avg y.weights (fun i => y.data i l)) +
        ∑ l, avg y.weights (fun i => y.data i l) * avg y.weights (fun i => y.data i l) := by
      rw [Finset.mul_sum, ← Finset.sum_sub_distrib, ← Finset.sum_add_distrib]
      exact Finset.sum_congr rfl fun l _ => by ring
    rw [this]
    ring
  have h0 : 0 ≤ s * ∑ l, (avg x.weights (fun i => x.data i l) - avg y.weights (fun i => y.data i l)) ^ 2 :=
    mul_nonneg hs.le (Finset.sum_nonneg fun l _ => sq_nonneg _)
  have h1 : mmdCompute big (KExpr.linear s c : KExpr d).sem.compute x y bs =
      .ok (Real.sqrt (s * ∑ l, (avg x.weights (fun i => x.data i l) - avg y.weights (fun i => y.data i l)) ^ 2)) := by
    rw [C07_compute big _ hn hm x y hx hy bs hbs, hm2, max_eq_right h0]
  refine ⟨h1, ?_⟩
  rw [h1, Except.ok.injEq, Real.sqrt_eq_zero h0, mul_eq_zero, or_iff_right hs.ne', Finset.sum_eq_zero_iff_of_nonneg fun l _ => sq_nonneg _]
  simp only [Finset.mem_univ, true_implies, sq_eq_zero_iff, sub_eq_zero]

/-- Two points on either side of zero and zero itself have the same mean. -/
example (big : ℝ) : mmdCompute big (KExpr.linear 1 0 : KExpr 1).sem.compute (⟨fun i _ => (![-1, 1] : Fin 2 → ℝ) i, fun _ => 1⟩ : Data 2 (Vec 1) ℝ)
    (⟨fun _ _ => 0, fun _ => 1⟩ : Data 1 (Vec 1) ℝ) (.leaf none) = .ok 0 :=
  (C87_linear big 1 0 one_pos (by norm_num) (by norm_num) _ _ (by norm_num) (by norm_num) _ (Or.inl rfl)).2.2 fun l => by
    simp [avg, Fin.sum_univ_two]

/-- Two different distributions with equal kernel averages cannot be told apart. -/
theorem Strict.mmdSq_eq_zero {X : Type} {k : X → X → ℝ} (hk : ∀ a b, k a b = k b a) {n m : ℕ} (x : Fin n → X) (wx : Fin n → ℝ) (y : Fin m → X) (wy : Fin m → ℝ)
    (hx : ∀ i, avg wx (fun j => k (x i) (x j)) = avg wy (fun j => k (x i) (y j))) (hy : ∀ i, avg wx (fun j => k (y i) (x j)) = avg wy (fun j => k (y i) (y j))) :
    mmdSq k x wx y wy = 0 := by
  have e : avg wx (fun i => avg wy fun j => k (x i) (y j)) = avg wy (fun i => avg wx fun j => k (y i) (x j)) := by
    simp only [avg, Finset.mul_sum, mul_div_assoc', Finset.sum_div]
    rw [Finset.sum_comm]
    exact Finset.sum_congr rfl fun a _ => Finset.sum_congr rfl fun b _ => by rw [hk (x b) (y a)]; ring
  unfold mmdSq
  simp only [hx]
  rw [e]
  simp only [hy]
  ring

/-- The alternating binomial sum of a polynomial of degree at most `n` vanishes: its averages over the even and over the odd numbers up to `n + 1` agree. -/
theorem Strict.binomial (n : ℕ) (a c : ℝ) :
    ∑ i : Fin (n + 2), (if Even (i : ℕ) then ((n + 1).choose i : ℝ) else 0) * (a * (i : ℕ) + c) ^ n =
      ∑ i : Fin (n + 2), (if Even (i : ℕ) then 0 else ((n + 1).choose i : ℝ)) * (a * (i : ℕ) + c) ^ n := by
  have h := congrFun (Polynomial.fwdDiff_iter_eq_zero_of_degree_lt (P := (Polynomial.C a * Polynomial.X + Polynomial.C c) ^ n) (n := n + 1) (by
    refine Nat.lt_succ_of_le (Polynomial.natDegree_pow_le.trans ?_)
    calc n * _ ≤ n * 1 := Nat.mul_le_mul_left _ Polynomial.natDegree_linear_le
      _ = n := mul_one n)) 0
  rw [fwdDiff_iter_eq_sum_shift, Finset.sum_range] at h
  simp only [zsmul_eq_mul, Polynomial.eval_pow, Polynomial.eval_add, Polynomial.eval_mul, Polynomial.eval_C, Polynomial.eval_X, zero_add, nsmul_eq_mul, mul_one,
    Pi.zero_apply] at h
  rw [← sub_eq_zero, ← Finset.sum_sub_distrib]
  have h2 : (-1 : ℝ) ^ (n + 1) * ∑ i : Fin (n + 2), (((-1 : ℤ) ^ (n + 1 - (i : ℕ)) * ((n + 1).choose i : ℤ) : ℤ) : ℝ) * (a * (i : ℕ) + c) ^ n = 0 := by
    rw [h, mul_zero]
  refine Eq.trans ?_ h2
  rw [Finset.mul_sum]
  refine Finset.sum_congr rfl fun i _ => ?_
  rw [← sub_mul, ← mul_assoc]
  congr 1
  push_cast
  rw [← mul_assoc, ← pow_add]
  have hi : (i : ℕ) ≤ n + 1 := by omega
  by_cases he : Even (i : ℕ)
  · have : Even (n + 1 + (n + 1 - (i : ℕ))) := by
      rw [show n + 1 + (n + 1 - (i : ℕ)) = 2 * (n + 1) - i by omega]
      exact (Nat.even_sub (by omega)).2 (iff_of_true (even_two_mul _) he)
    rw [if_pos he, if_pos he, this.neg_one_pow]
    ring
  · have : Odd (n + 1 + (n + 1 - (i : ℕ))) := by
      rw [show n + 1 + (n + 1 - (i : ℕ)) = 2 * (n + 1) - i by omega]
      exact Nat.Even.sub_odd (by omega) (even_two_mul _) (Nat.not_even_iff_odd.1 he)
    rw [if_neg he, if_neg he, this.neg_one_pow]
    ring

/-- **C87.** The polynomial kernel, whatever its degree, gives discrepancy zero to some pair of different distributions. -/
theorem C87_polynomial (big s c : ℝ) (N : ℤ) (hN : 0 ≤ N) (hd : 0 < d) :
    ∃ (n : ℕ) (x y : Data n (Vec d) ℝ), (∀ i, 0 ≤ x.weights i) ∧ (∀ i, 0 ≤ y.weights i) ∧ 0 < ∑ i, x.weights i ∧ 0 < ∑ i, y.weights i ∧
      (∃ a, massAt x.data x.weights a / ∑ i, x.weights i ≠ massAt y.data y.weights a / ∑ i, y.weights i) ∧
      ∀ bs, ValidBlock bs → mmdCompute big (KExpr.polynomial s c (.int N) : KExpr d).sem.compute x y bs = .ok 0 := by
  obtain ⟨n, rfl⟩ := Int.eq_ofNat_of_zero_le hN
  let pt : Fin (n + 2) → Vec d := fun i l => if l = ⟨0, hd⟩ then ((i : ℕ) : ℝ) else 0
  let we : Fin (n + 2) → ℝ := fun i => if Even (i : ℕ) then ((n + 1).choose i : ℝ) else 0
  let wo : Fin (n + 2) → ℝ := fun i => if Even (i : ℕ) then 0 else ((n + 1).choose i : ℝ)
  have hsum : ∑ i, we i = ∑ i, wo i := by simpa using Strict.binomial n 0 1
  have hwe : ∀ i, 0 ≤ we i := fun i => by
    simp only [we]
    split_ifs
    · exact Nat.cast_nonneg _
    · exact le_rfl
  have hwo : ∀ i, 0 ≤ wo i := fun i => by
    simp only [wo]
    split_ifs
    · exact le_rfl
    · exact Nat.cast_nonneg _
  have hpos : 0 < ∑ i, we i := Finset.sum_pos' (fun i _ => hwe i) ⟨0, Finset.mem_univ _, by simp [we]⟩
  have hpos' : 0 < ∑ i, wo i := hsum ▸ hpos
  refine ⟨n + 2, ⟨pt, we⟩, ⟨pt, wo⟩, hwe, hwo, hpos, hpos', ⟨pt 0, ?_⟩, fun bs hbs => ?_⟩
  · have hinj : ∀ i, pt i = pt 0 → i = 0 := by
      intro i hi
      have h1 : ((i : ℕ) : ℝ) = ((0 : ℕ) : ℝ) := by
        have := congrFun hi ⟨0, hd⟩
        simp only [pt, if_true] at this
        exact this
      exact Fin.ext (Nat.cast_injective h1)
    have e1 : massAt pt we (pt 0) = 1 := (massAt_single pt we 0 hinj).trans (by simp [we])
    have e2 : massAt pt wo (pt 0) = 0 := (massAt_single pt wo 0 hinj).trans (by simp [wo])
    simp only [e1, e2, zero_div]
    exact div_ne_zero one_ne_zero hpos.ne'
  · rw [C07_compute big _ (by omega) (by omega) _ _ hpos.ne' hpos'.ne' bs hbs]
    have hdot : ∀ i j, vdot (pt i) (pt j) = ((i : ℕ) : ℝ) * ((j : ℕ) : ℝ) := by
      intro i j
      simp only [vdot, pt, mul_ite, ite_mul, zero_mul, mul_zero]
      rw [Finset.sum_eq_single ⟨0, hd⟩ (fun l _ hl => by simp [hl]) (by simp)]
      simp
    have hav : ∀ i, avg we (fun j => (KExpr.polynomial s c (.int n) : KExpr d).sem.compute (pt i) (pt j)) =
        avg wo (fun j => (KExpr.polynomial s c (.int n) : KExpr d).sem.compute (pt i) (pt j)) := by
      intro i
      have hb := Strict.binomial n ((i : ℕ) : ℝ) c
      unfold avg
      rw [hsum]
      congr 1
      have e : ∀ j, (KExpr.polynomial s c (.int n) : KExpr d).sem.compute (pt i) (pt j) = s * (((i : ℕ) : ℝ) * ((j : ℕ) : ℝ) + c) ^ n := by
        intro j
        simp only [KExpr.sem, polynomialSem, hdot]
        congr 1
      simp only [e]
      calc ∑ j, we j * (s * (((i : ℕ) : ℝ) * ((j : ℕ) : ℝ) + c) ^ n) = s * ∑ j, we j * (((i : ℕ) : ℝ) * ((j : ℕ) : ℝ) + c) ^ n := by
            rw [Finset.mul_sum]
            exact Finset.sum_congr rfl fun j _ => by ring
        _ = s * ∑ j, wo j * (((i : ℕ) : ℝ) * ((j : ℕ) : ℝ) + c) ^ n := by rw [hb]
        _ = _ := by
            rw [Finset.mul_sum]
            exact Finset.sum_congr rfl fun j _ => by ring
    rw [Strict.mmdSq_eq_zero (C08_symmetric (KExpr.polynomial s c (.int n) : KExpr d) trivial) pt we pt wo hav hav]
    simp

example (big : ℝ) : ∃ (n : ℕ) (x y : Data n (Vec 2) ℝ), (∃ a, massAt x.data x.weights a / ∑ i, x.weights i ≠ massAt y.data y.weights a / ∑ i, y.weights i) ∧
    mmdCompute big (KExpr.polynomial 1 1 (.int 3) : KExpr 2).sem.compute x y (.leaf none) = .ok 0 := by
  obtain ⟨n, x, y, -, -, -, -, h1, h2⟩ := C87_polynomial (d := 2) big 1 1 3 (by norm_num) (by norm_num)
  exact ⟨n, x, y, h1, h2 _ (Or.inl rfl)⟩

/-- **C87.** The periodic and the Poisson kernel take two points a period apart for one. -/
theorem C87_periodic (big : ℝ) (hd : 0 < d) (bs : PyTree (Option ℤ)) (hbs : ValidBlock bs) :
    (∀ l s p : ℝ, mmdCompute big (KExpr.periodic l s p : KExpr d).sem.compute (Data.ofArray (K := ℝ) fun (_ : Fin 1) => (0 : Vec d))
      (Data.ofArray fun (_ : Fin 1) => Pi.single ⟨0, hd⟩ p) bs = .ok 0) ∧
    ∀ r s : ℝ, mmdCompute big (KExpr.poisson r s : KExpr d).sem.compute (Data.ofArray (K := ℝ) fun (_ : Fin 1) => (0 : Vec d))
      (Data.ofArray fun (_ : Fin 1) => Pi.single ⟨0, hd⟩ (2 * Real.pi)) bs = .ok 0 := by
  have key : ∀ (k : Vec d → Vec d → ℝ) (a b : Vec d), k a a - 2 * k a b + k b b = 0 →
      mmdCompute big k (Data.ofArray (K := ℝ) fun (_ : Fin 1) => a) (Data.ofArray fun (_ : Fin 1) => b) bs = .ok 0 := by
    intro k a b h
    rw [C07_compute big k one_pos one_pos _ _ (by simp [Data.ofArray]) (by simp [Data.ofArray]) bs hbs]
    have : mmdSq k (Data.ofArray (K := ℝ) fun (_ : Fin 1) => a).data (Data.ofArray (K := ℝ) fun (_ : Fin 1) => a).weights
        (Data.ofArray (K := ℝ) fun (_ : Fin 1) => b).data (Data.ofArray (K := ℝ) fun (_ : Fin 1) => b).weights = 0 := by
      simpa [mmdSq, avg, Data.ofArray] using h
    rw [this]
    simp
  have hn : ∀ p : ℝ, nrm (0 : Vec d) (Pi.single ⟨0, hd⟩ p) = |p| := by
    intro p
    rw [nrm_eq]
    have : sqDist (0 : Vec d) (Pi.single ⟨0, hd⟩ p) = p ^ 2 := by
      simp only [sqDist, Pi.zero_apply, zero_sub]
      rw [Finset.sum_eq_single ⟨0, hd⟩ (fun l _ hl => by simp [hl]) (by simp)]
      simp [pow_two]
    rw [this, Real.sqrt_sq_eq_abs]
  have h0 : ∀ a : Vec d, nrm a a = 0 := fun a => by
    rw [nrm_eq]
    simp [sqDist]
  refine ⟨fun l s p => key _ _ _ ?_, fun r s => key _ _ _ ?_⟩
  · simp only [KExpr.sem, periodicSem, h0, hn]
    have : Real.sin (Real.pi * |p| / p) ^ 2 = 0 := by
      rcases lt_trichotomy p 0 with h | h | h
      · rw [abs_of_neg h, mul_neg, neg_div, mul_div_cancel_right₀ _ h.ne]
        simp
      · simp [h]
      · rw [abs_of_pos h, mul_div_cancel_right₀ _ h.ne']
        simp
    rw [this]
    simp
    ring
  · simp only [KExpr.sem, poissonSem, h0, hn]
    rw [abs_of_pos Real.two_pi_pos, Real.cos_two_pi, Real.cos_zero]
    ring

example (big : ℝ) : mmdCompute big (KExpr.periodic 1 1 3 : KExpr 1).sem.compute (Data.ofArray (K := ℝ) fun (_ : Fin 1) => (0 : Vec 1))
    (Data.ofArray fun (_ : Fin 1) => Pi.single ⟨0, one_pos⟩ 3) (.leaf none) = .ok 0 :=
  (C87_periodic big one_pos (.leaf none) (Or.inl rfl)).1 1 1 3

end

end Coreax
