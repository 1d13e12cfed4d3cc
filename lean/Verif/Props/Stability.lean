import Verif.Props.Metrics
import Verif.Props.Kernel
import Verif.Props.Equivariance
import Verif.Props.HerdingRate
import Mathlib.Analysis.SpecialFunctions.Trigonometric.Bounds

/-!
# C83: how much the MMD changes when the data are moved
-/

namespace Coreax

open Spec Finset
open scoped RealInnerProductSpace

namespace Spec

/-- The distance of two points as seen by a kernel. -/
noncomputable def kernelDist {X : Type*} (k : X → X → ℝ) (a b : X) : ℝ := Real.sqrt (k a a - 2 * k a b + k b b)

/-- A transport plan between two weighted samples: how much of the mass of `x i` goes to `y j`. -/
structure IsPlan {n m : ℕ} (w : Fin n → ℝ) (v : Fin m → ℝ) (π : Fin n → Fin m → ℝ) : Prop where
  nonneg : ∀ i j, 0 ≤ π i j
  left : ∀ i, ∑ j, π i j = w i / ∑ t, w t
  right : ∀ j, ∑ i, π i j = v j / ∑ t, v t

/-- The kernels for which a Lipschitz constant is given. -/
def Steady {d : ℕ} : KExpr d → Prop
  | .const _ => True
  | .squaredExponential _ _ => True
  | .pcimq _ _ => True
  | .rationalQuadratic _ _ a => a ≠ 0
  | .periodic _ _ _ => True
  | .power k _ => Steady k
  | .add a b => Steady a ∧ Steady b
  | .mul a b => Steady a ∧ Steady b
  | _ => False

/-- The value on the diagonal. -/
noncomputable def diagonal {d : ℕ} : KExpr d → ℝ
  | .const c => c
  | .squaredExponential _ s => s
  | .pcimq _ s => s
  | .rationalQuadratic _ s _ => s
  | .periodic _ s _ => s
  | .power k n => diagonal k ^ n.toInt.toNat
  | .add a b => diagonal a + diagonal b
  | .mul a b => diagonal a * diagonal b
  | _ => 0

/-- The square of the Lipschitz constant. -/
noncomputable def lipSq {d : ℕ} : KExpr d → ℝ
  | .squaredExponential l s => s / l ^ 2
  | .pcimq l s => s / (2 * l ^ 2)
  | .rationalQuadratic l s _ => s / l ^ 2
  | .periodic l s p => 4 * s * Real.pi ^ 2 / (p ^ 2 * l ^ 2)
  | .power k n => n.toInt.toNat * diagonal k ^ (n.toInt.toNat - 1) * lipSq k
  | .add a b => lipSq a + lipSq b
  | .mul a b => diagonal a * lipSq b + diagonal b * lipSq a
  | _ => 0

end Spec

namespace Stability

universe u
variable {X : Type u} {n m : ℕ}

section
variable {H : Type*} [NormedAddCommGroup H] [InnerProductSpace ℝ H] {φ : X → H} {k : X → X → ℝ}

theorem kernelDist_eq (h : ∀ a b, k a b = ⟪φ a, φ b⟫) (a b : X) : kernelDist k a b = ‖φ a - φ b‖ := by
  rw [kernelDist, h, h, h, real_inner_self_eq_norm_sq, real_inner_self_eq_norm_sq, ← norm_sub_sq_real, Real.sqrt_sq (norm_nonneg _)]

theorem embedding_eq (x : Fin n → X) (w : Fin n → ℝ) : meanEmbedding φ x w = ∑ i, (w i / ∑ t, w t) • φ (x i) := by
  rw [meanEmbedding, smul_sum]
  exact sum_congr rfl fun i _ => by rw [smul_smul, div_eq_inv_mul]

theorem embedding_move (h : ∀ a b, k a b = ⟪φ a, φ b⟫) (x x' : Fin n → X) (w : Fin n → ℝ) (hw : ∀ i, 0 ≤ w i) :
    ‖meanEmbedding φ x w - meanEmbedding φ x' w‖ ≤ avg w fun i => kernelDist k (x i) (x' i) := by
  rw [embedding_eq, embedding_eq, ← sum_sub_distrib, avg, sum_div]
  refine (norm_sum_le _ _).trans (sum_le_sum fun i _ => ?_)
  rw [← smul_sub, norm_smul, kernelDist_eq h, Real.norm_of_nonneg (div_nonneg (hw i) (sum_nonneg fun i _ => hw i))]
  exact le_of_eq (by ring)

end

variable {d : ℕ}

theorem pow_sub_le {s k : ℝ} (hk : 0 ≤ k) (hks : k ≤ s) (p : ℕ) : s ^ p - k ^ p ≤ p * s ^ (p - 1) * (s - k) := by
  have hs := hk.trans hks
  induction p with
  | zero => simp
  | succ p ih =>
    have h1 : k ^ p ≤ s ^ p := pow_le_pow_left₀ hk hks p
    have h2 : s * (p * s ^ (p - 1)) = p * s ^ p := by
      cases p with
      | zero => simp
      | succ p => simp; ring
    have h3 : s ^ (p + 1) - k ^ (p + 1) = s * (s ^ p - k ^ p) + k ^ p * (s - k) := by ring
    rw [h3, Nat.add_sub_cancel]
    push_cast
    nlinarith [mul_le_mul_of_nonneg_left ih hs, mul_le_mul_of_nonneg_right h1 (sub_nonneg.2 hks), h2]

theorem one_sub_exp_le (t : ℝ) : 1 - Real.exp (-t) ≤ t := by linarith [Real.add_one_le_exp (-t)]

theorem sqDist_nonneg' (a b : Vec d) : 0 ≤ sqDist a b := sum_nonneg fun _ _ => mul_self_nonneg _

/-- The bounds on a kernel, by induction over the expression. -/
theorem bounds (K : KExpr d) (hc : K.check = .ok ()) (hK : Steady K) :
    0 ≤ lipSq K ∧ ∀ a b, K.sem.compute a a = diagonal K ∧ 0 ≤ K.sem.compute a b ∧ K.sem.compute a b ≤ diagonal K ∧
      2 * (diagonal K - K.sem.compute a b) ≤ lipSq K * sqDist a b := by
  have h0 : ∀ a : Vec d, sqDist a a = 0 := fun a => by simp [sqDist]
  have hn : ∀ a : Vec d, nrm a a = 0 := fun a => by rw [nrm_eq, h0, Real.sqrt_zero]
  -- kernels `s * f` with `f` in `[0, 1]`
  have key : ∀ {s L : ℝ} {f : Vec d → Vec d → ℝ}, 0 < s → (∀ a, f a a = 1) → (∀ a b, 0 ≤ f a b) → (∀ a b, f a b ≤ 1) →
      (∀ a b, 2 * s * (1 - f a b) ≤ L * sqDist a b) → ∀ a b, s * f a a = s ∧ 0 ≤ s * f a b ∧ s * f a b ≤ s ∧ 2 * (s - s * f a b) ≤ L * sqDist a b := by
    intro s L f hs h1 h2 h3 h4 a b
    refine ⟨by rw [h1, mul_one], mul_nonneg hs.le (h2 a b), ?_, ?_⟩
    · have := mul_le_mul_of_nonneg_left (h3 a b) hs.le
      linarith
    · have := h4 a b
      linarith
  induction K with
  | const c =>
    have := checkNonneg_ok hc
    exact ⟨le_rfl, fun a b => ⟨rfl, this, le_rfl, by simp [lipSq, diagonal, KExpr.sem, constSem]⟩⟩
  | squaredExponential l s =>
    have hl := checkPos_ok (bind_ok hc).1
    have hs := checkPos_ok (bind_ok hc).2
    refine ⟨by simp only [lipSq]; positivity, key (L := s / l ^ 2) (f := fun a b => Real.exp (-sqDist a b / (2 * l ^ 2))) hs (fun a => by simp [h0]) (fun a b => (Real.exp_pos _).le) (fun a b => ?_) fun a b => ?_⟩
    · rw [Real.exp_le_one_iff, neg_div]
      have := sqDist_nonneg' a b
      exact neg_nonpos.2 (by positivity)
    · have := one_sub_exp_le (sqDist a b / (2 * l ^ 2))
      rw [← neg_div] at this
      calc 2 * s * (1 - Real.exp (-sqDist a b / (2 * l ^ 2))) ≤ 2 * s * (sqDist a b / (2 * l ^ 2)) := mul_le_mul_of_nonneg_left this (by positivity)
        _ = s / l ^ 2 * sqDist a b := by field_simp
  | pcimq l s =>
    have hl := checkPos_ok (bind_ok hc).1
    have hs := checkPos_ok (bind_ok hc).2
    have hf : ∀ a b : Vec d, (KExpr.pcimq l s : KExpr d).sem.compute a b = s * (1 / Real.sqrt (1 + sqDist a b / (2 * l ^ 2))) := fun a b => by
      simp only [KExpr.sem, pcimqSem]; ring
    simp only [hf]
    refine ⟨by simp only [lipSq]; positivity, key (L := s / (2 * l ^ 2)) (f := fun a b => 1 / Real.sqrt (1 + sqDist a b / (2 * l ^ 2))) hs (fun a => by simp [h0]) (fun a b => by positivity) (fun a b => ?_) fun a b => ?_⟩
    · have := sqDist_nonneg' a b
      rw [div_le_one (Real.sqrt_pos.2 (by positivity)), Real.one_le_sqrt]
      linarith [show 0 ≤ sqDist a b / (2 * l ^ 2) by positivity]
    · have h1 := sqDist_nonneg' a b
      set u := sqDist a b / (2 * l ^ 2) with hu
      have hu0 : 0 ≤ u := by positivity
      have h2 : Real.sqrt (1 + u) ≤ 1 + u / 2 := by
        rw [Real.sqrt_le_left (by positivity)]
        nlinarith [sq_nonneg u]
      have h3 : 0 < Real.sqrt (1 + u) := Real.sqrt_pos.2 (by positivity)
      have h4 : 1 - 1 / Real.sqrt (1 + u) ≤ u / 2 := by
        have : 1 / (1 + u / 2) ≤ 1 / Real.sqrt (1 + u) := one_div_le_one_div_of_le h3 h2
        have h5 : 1 - u / 2 ≤ 1 / (1 + u / 2) := by
          rw [le_div_iff₀ (by positivity)]
          nlinarith [sq_nonneg u]
        linarith
      calc 2 * s * (1 - 1 / Real.sqrt (1 + u)) ≤ 2 * s * (u / 2) := mul_le_mul_of_nonneg_left h4 (by positivity)
        _ = s / (2 * l ^ 2) * sqDist a b := by rw [hu]; field_simp
  | rationalQuadratic l s a =>
    have hl := checkPos_ok (bind_ok hc).1
    have hs := checkPos_ok (bind_ok (bind_ok hc).2).1
    have ha : 0 < a := lt_of_le_of_ne (checkNonneg_ok (bind_ok (bind_ok hc).2).2) (Ne.symm hK)
    have hp : ∀ x y : Vec d, 0 ≤ sqDist x y / (2 * a * l ^ 2) := fun x y => by
      have := sqDist_nonneg' x y
      positivity
    refine ⟨by simp only [lipSq]; positivity, key (L := s / l ^ 2) (f := fun x y => (1 + sqDist x y / (2 * a * l ^ 2)) ^ (-a)) hs (fun x => by simp [h0]) (fun x y => ?_) (fun x y => ?_) fun x y => ?_⟩
    · exact Real.rpow_nonneg (by linarith [hp x y]) _
    · exact Real.rpow_le_one_of_one_le_of_nonpos (by linarith [hp x y]) (by linarith)
    · have h1 : (0 : ℝ) < 1 + sqDist x y / (2 * a * l ^ 2) := by linarith [hp x y]
      have h2 : Real.log (1 + sqDist x y / (2 * a * l ^ 2)) ≤ sqDist x y / (2 * a * l ^ 2) := by linarith [Real.log_le_sub_one_of_pos h1]
      have h3 : 1 - sqDist x y / (2 * l ^ 2) ≤ (1 + sqDist x y / (2 * a * l ^ 2)) ^ (-a) := by
        rw [Real.rpow_def_of_pos h1]
        have h4 : a * (sqDist x y / (2 * a * l ^ 2)) = sqDist x y / (2 * l ^ 2) := by field_simp
        have := Real.add_one_le_exp (Real.log (1 + sqDist x y / (2 * a * l ^ 2)) * -a)
        nlinarith
      calc 2 * s * (1 - (1 + sqDist x y / (2 * a * l ^ 2)) ^ (-a)) ≤ 2 * s * (sqDist x y / (2 * l ^ 2)) := mul_le_mul_of_nonneg_left (by linarith) (by positivity)
        _ = s / l ^ 2 * sqDist x y := by field_simp
  | periodic l s p =>
    have hl := checkPos_ok (bind_ok hc).1
    have hs := checkPos_ok (bind_ok hc).2
    have hr : ∀ r : ℝ, -2 * Real.sin r ^ 2 / l ^ 2 = -(2 * Real.sin r ^ 2 / l ^ 2) := fun r => by ring
    refine ⟨by simp only [lipSq]; positivity, key (L := 4 * s * Real.pi ^ 2 / (p ^ 2 * l ^ 2)) (f := fun a b => Real.exp (-2 * Real.sin (Real.pi * nrm a b / p) ^ 2 / l ^ 2)) hs (fun a => by simp [hn]) (fun a b => (Real.exp_pos _).le) (fun a b => ?_) fun a b => ?_⟩
    · rw [Real.exp_le_one_iff, hr]
      exact neg_nonpos.2 (by positivity)
    · rw [hr]
      have h1 := one_sub_exp_le (2 * Real.sin (Real.pi * nrm a b / p) ^ 2 / l ^ 2)
      have h2 := Real.sin_sq_le_sq (x := Real.pi * nrm a b / p)
      have h3 : nrm a b ^ 2 = sqDist a b := by rw [nrm_eq, Real.sq_sqrt (sqDist_nonneg' a b)]
      calc _ ≤ 2 * s * (2 * Real.sin (Real.pi * nrm a b / p) ^ 2 / l ^ 2) := mul_le_mul_of_nonneg_left h1 (by positivity)
        _ ≤ 2 * s * (2 * (Real.pi * nrm a b / p) ^ 2 / l ^ 2) := by gcongr
        _ = 4 * s * Real.pi ^ 2 / (p ^ 2 * l ^ 2) * sqDist a b := by rw [← h3]; ring
  | power k n ih =>
    obtain ⟨i0, ih⟩ := ih (bind_ok hc).1 hK
    have hz : 0 ≤ n.toInt := le_trans (by norm_num) (checkIntGe_ok (bind_ok hc).2)
    have hd : 0 ≤ diagonal k := (ih 0 0).2.1.trans (ih 0 0).2.2.1
    refine ⟨by simp only [lipSq]; positivity, fun a b => ?_⟩
    simp only [KExpr.sem, powerSem, zpow_eq_pow hz, diagonal, lipSq]
    obtain ⟨i1, i2, i3, i4⟩ := ih a b
    refine ⟨by rw [i1], by positivity, pow_le_pow_left₀ i2 i3 _, ?_⟩
    have h1 := pow_sub_le i2 i3 n.toInt.toNat
    have h2 := mul_le_mul_of_nonneg_left i4 (show 0 ≤ (n.toInt.toNat : ℝ) * diagonal k ^ (n.toInt.toNat - 1) by positivity)
    linarith
  | add a b iha ihb =>
    obtain ⟨a0, iha⟩ := iha (bind_ok hc).1 hK.1
    obtain ⟨b0, ihb⟩ := ihb (bind_ok hc).2 hK.2
    refine ⟨add_nonneg a0 b0, fun x y => ?_⟩
    obtain ⟨a1, a2, a3, a4⟩ := iha x y
    obtain ⟨b1, b2, b3, b4⟩ := ihb x y
    simp only [KExpr.sem, addSem, diagonal, lipSq]
    exact ⟨by rw [a1, b1], by linarith, by linarith, by linarith⟩
  | mul a b iha ihb =>
    obtain ⟨a0, iha⟩ := iha (bind_ok hc).1 hK.1
    obtain ⟨b0, ihb⟩ := ihb (bind_ok hc).2 hK.2
    have da : 0 ≤ diagonal a := (iha 0 0).2.1.trans (iha 0 0).2.2.1
    have db : 0 ≤ diagonal b := (ihb 0 0).2.1.trans (ihb 0 0).2.2.1
    refine ⟨by simp only [lipSq]; positivity, fun x y => ?_⟩
    obtain ⟨a1, a2, a3, a4⟩ := iha x y
    obtain ⟨b1, b2, b3, b4⟩ := ihb x y
    simp only [mulSem_compute_eq, diagonal, lipSq]
    refine ⟨by rw [a1, b1], by positivity, mul_le_mul a3 b3 b2 da, ?_⟩
    nlinarith [mul_le_mul_of_nonneg_left b4 da, mul_le_mul_of_nonneg_left a4 db, mul_le_mul_of_nonneg_right b3 (sub_nonneg.2 a3)]
  | _ => exact hK.elim

theorem kernelDist_le (K : KExpr d) (hc : K.check = .ok ()) (hK : Steady K) (a b : Vec d) :
    kernelDist K.sem.compute a b ≤ Real.sqrt (lipSq K) * nrm a b := by
  obtain ⟨h0, h⟩ := bounds K hc hK
  rw [kernelDist, nrm_eq, ← Real.sqrt_mul h0]
  refine Real.sqrt_le_sqrt ?_
  rw [(h a b).1, (h b b).1]
  linarith [(h a b).2.2.2]

end Stability

open Stability

universe u
variable {X : Type u} [Zero X] {n m : ℕ} {d : ℕ}

/-- **C83.** The MMD is at most the cost of any plan that transports one sample to the other, at the distance of the kernel. -/
theorem C83_transport (big : ℝ) (k : X → X → ℝ) (hk : IsPSD k) (hn : 0 < n) (hm : 0 < m) (x : Data n X ℝ) (y : Data m X ℝ)
    (hx : ∑ i, x.weights i ≠ 0) (hy : ∑ i, y.weights i ≠ 0) (bs : PyTree (Option ℤ)) (hbs : ValidBlock bs) (π : Fin n → Fin m → ℝ)
    (hπ : IsPlan x.weights y.weights π) :
    ∃ r, mmdCompute big k x y bs = .ok r ∧ r ≤ ∑ i, ∑ j, π i j * kernelDist k (x.data i) (y.data j) := by
  obtain ⟨H, _, _, φ, hφ⟩ := hk.exists_feature
  refine ⟨_, (C07_rkhs_distance big k hk hn hm x y hx hy bs hbs).2 H _ _ φ hφ, ?_⟩
  have h1 : meanEmbedding φ x.data x.weights = ∑ i, ∑ j, π i j • φ (x.data i) := by
    rw [embedding_eq]
    exact sum_congr rfl fun i _ => by rw [← hπ.left, sum_smul]
  have h2 : meanEmbedding φ y.data y.weights = ∑ i, ∑ j, π i j • φ (y.data j) := by
    rw [embedding_eq, sum_comm]
    exact sum_congr rfl fun j _ => by rw [← hπ.right, sum_smul]
  rw [h1, h2, ← sum_sub_distrib]
  refine (norm_sum_le _ _).trans (sum_le_sum fun i _ => ?_)
  rw [← sum_sub_distrib]
  refine (norm_sum_le _ _).trans (sum_le_sum fun j _ => ?_)
  rw [← smul_sub, norm_smul, kernelDist_eq hφ, Real.norm_of_nonneg (hπ.nonneg i j)]

/-- **C83.** Moving the points of both samples changes the MMD by at most the average movements, at the distance of the kernel. -/
theorem C83_move (big : ℝ) (k : X → X → ℝ) (hk : IsPSD k) (hn : 0 < n) (hm : 0 < m) (x x' : Fin n → X) (w : Fin n → ℝ) (y y' : Fin m → X)
    (v : Fin m → ℝ) (hw : ∀ i, 0 ≤ w i) (hv : ∀ i, 0 ≤ v i) (hx : ∑ i, w i ≠ 0) (hy : ∑ i, v i ≠ 0) (bs : PyTree (Option ℤ)) (hbs : ValidBlock bs) :
    ∃ r r', mmdCompute big k ⟨x, w⟩ ⟨y, v⟩ bs = .ok r ∧ mmdCompute big k ⟨x', w⟩ ⟨y', v⟩ bs = .ok r' ∧
      |r - r'| ≤ avg w (fun i => kernelDist k (x i) (x' i)) + avg v fun j => kernelDist k (y j) (y' j) := by
  obtain ⟨H, _, _, φ, hφ⟩ := hk.exists_feature
  refine ⟨_, _, (C07_rkhs_distance big k hk hn hm ⟨x, w⟩ ⟨y, v⟩ hx hy bs hbs).2 H _ _ φ hφ,
    (C07_rkhs_distance big k hk hn hm ⟨x', w⟩ ⟨y', v⟩ hx hy bs hbs).2 H _ _ φ hφ, ?_⟩
  refine (abs_norm_sub_norm_le _ _).trans ?_
  rw [sub_sub_sub_comm]
  exact (norm_sub_le _ _).trans (add_le_add (embedding_move hφ x x' w hw) (embedding_move hφ y y' v hv))

/-- **C83.** Changing the weights changes the MMD by at most the change of the normalised weights, times the norms of the features. -/
theorem C83_weights (big : ℝ) (k : X → X → ℝ) (hk : IsPSD k) (hn : 0 < n) (hm : 0 < m) (x : Fin n → X) (w w' : Fin n → ℝ) (y : Data m X ℝ)
    (hx : ∑ i, w i ≠ 0) (hx' : ∑ i, w' i ≠ 0) (hy : ∑ i, y.weights i ≠ 0) (bs : PyTree (Option ℤ)) (hbs : ValidBlock bs) :
    ∃ r r', mmdCompute big k ⟨x, w⟩ y bs = .ok r ∧ mmdCompute big k ⟨x, w'⟩ y bs = .ok r' ∧
      |r - r'| ≤ ∑ i, |w i / (∑ t, w t) - w' i / ∑ t, w' t| * Real.sqrt (k (x i) (x i)) := by
  obtain ⟨H, _, _, φ, hφ⟩ := hk.exists_feature
  refine ⟨_, _, (C07_rkhs_distance big k hk hn hm ⟨x, w⟩ y hx hy bs hbs).2 H _ _ φ hφ,
    (C07_rkhs_distance big k hk hn hm ⟨x, w'⟩ y hx' hy bs hbs).2 H _ _ φ hφ, ?_⟩
  refine (abs_norm_sub_norm_le _ _).trans ?_
  rw [sub_sub_sub_cancel_right, embedding_eq, embedding_eq, ← sum_sub_distrib]
  refine (norm_sum_le _ _).trans (sum_le_sum fun i _ => ?_)
  rw [← sub_smul, norm_smul, Real.norm_eq_abs, hφ, real_inner_self_eq_norm_sq, Real.sqrt_sq (norm_nonneg _)]

/-- **C83.** A coreset chosen from data known up to `ε`: the MMD between the true data and the true coreset differs from the computed one by
at most `2 L ε`.  The coreset is any selection of rows with any weights. -/
theorem C83_rounded_data (big : ℝ) (K : KExpr d) (hc : K.check = .ok ()) (hd : K.PsdDomain) (hK : Steady K) (hn : 0 < n) (hm : 0 < m)
    (x x' : Fin n → Vec d) (w : Fin n → ℝ) (f : Fin m → Fin n) (v : Fin m → ℝ) (hw : ∀ i, 0 ≤ w i) (hv : ∀ i, 0 ≤ v i) (hx : ∑ i, w i ≠ 0)
    (hy : ∑ i, v i ≠ 0) (bs : PyTree (Option ℤ)) (hbs : ValidBlock bs) {ε : ℝ} (hε : ∀ i, nrm (x i) (x' i) ≤ ε) :
    ∃ r r', mmdCompute big K.sem.compute ⟨x, w⟩ ⟨fun t => x (f t), v⟩ bs = .ok r ∧
      mmdCompute big K.sem.compute ⟨x', w⟩ ⟨fun t => x' (f t), v⟩ bs = .ok r' ∧ |r - r'| ≤ 2 * Real.sqrt (lipSq K) * ε := by
  obtain ⟨r, r', h1, h2, h3⟩ := C83_move big K.sem.compute (C08_psd K hc hd) hn hm x x' w (fun t => x (f t)) (fun t => x' (f t)) v hw hv hx hy bs hbs
  refine ⟨r, r', h1, h2, h3.trans ?_⟩
  have key : ∀ {p : ℕ} (z z' : Fin p → Vec d) (u : Fin p → ℝ), (∀ i, 0 ≤ u i) → ∑ i, u i ≠ 0 → (∀ i, nrm (z i) (z' i) ≤ ε) →
      avg u (fun i => kernelDist K.sem.compute (z i) (z' i)) ≤ Real.sqrt (lipSq K) * ε := by
    intro p z z' u hu hu0 hz
    have hpos : 0 < ∑ i, u i := lt_of_le_of_ne (sum_nonneg fun i _ => hu i) (Ne.symm hu0)
    rw [avg, div_le_iff₀ hpos, mul_sum]
    refine sum_le_sum fun i _ => ?_
    rw [mul_comm (u i)]
    exact mul_le_mul_of_nonneg_right ((kernelDist_le K hc hK _ _).trans (mul_le_mul_of_nonneg_left (hz i) (Real.sqrt_nonneg _))) (hu i)
  have k1 := key x x' w hw hx hε
  have k2 := key (fun t => x (f t)) (fun t => x' (f t)) v hv hy fun t => hε (f t)
  linarith

/-- **C83.** The MMD is at most the Lipschitz constant times the cost of transport in Euclidean distance. -/
theorem C83_wasserstein (big : ℝ) (K : KExpr d) (hc : K.check = .ok ()) (hd : K.PsdDomain) (hK : Steady K) (hn : 0 < n) (hm : 0 < m)
    (x : Data n (Vec d) ℝ) (y : Data m (Vec d) ℝ) (hx : ∑ i, x.weights i ≠ 0) (hy : ∑ i, y.weights i ≠ 0) (bs : PyTree (Option ℤ))
    (hbs : ValidBlock bs) (π : Fin n → Fin m → ℝ) (hπ : IsPlan x.weights y.weights π) :
    ∃ r, mmdCompute big K.sem.compute x y bs = .ok r ∧ r ≤ Real.sqrt (lipSq K) * ∑ i, ∑ j, π i j * nrm (x.data i) (y.data j) := by
  obtain ⟨r, h1, h2⟩ := C83_transport big K.sem.compute (C08_psd K hc hd) hn hm x y hx hy bs hbs π hπ
  refine ⟨r, h1, h2.trans ?_⟩
  simp only [mul_sum]
  refine sum_le_sum fun i _ => sum_le_sum fun j _ => ?_
  calc _ ≤ π i j * (Real.sqrt (lipSq K) * nrm (x.data i) (y.data j)) := mul_le_mul_of_nonneg_left (kernelDist_le K hc hK _ _) (hπ.nonneg i j)
    _ = _ := by ring

example (big : ℝ) (x y : Vec 2) (π : Fin 1 → Fin 1 → ℝ) (hπ : IsPlan ![2] ![3] π) := C83_wasserstein big (.squaredExponential 2 1 : KExpr 2)
  (by norm_num [KExpr.check, checkPos, Bind.bind, Except.bind]) trivial trivial one_pos one_pos ⟨![x], ![2]⟩ ⟨![y], ![3]⟩ (by simp) (by simp) (.leaf none) (Or.inl rfl) π hπ

example : IsPlan ![2] ![3] ![![1]] := ⟨fun i j => by simp, fun i => by simp, fun j => by simp⟩

/-- **C83.** Kernel herding on data known up to `ε`: the coreset of the true data made of the same rows is within `sqrt (k(a,a) / size) + 2 L ε`
of the true data. -/
theorem C83_herding [NeZero n] (big : ℝ) (K : KExpr d) (hc : K.check = .ok ()) (hd : K.PsdDomain) (hK : Steady K) (x x' : Fin n → Vec d) {ε : ℝ}
    (hε : ∀ i, nrm (x i) (x' i) ≤ ε) (bs : PyTree (Option ℤ)) (hbs : ValidBlock bs) (size : ℕ) (hsize : 0 < size) (hle : size ≤ n)
    (ord : List (Fin (size + (size - size)))) (hord : ∀ t, t ∈ ord) :
    ∃ (f : Fin size → Fin n) (st : List ℝ) (r : ℝ), herdingReduce big K.sem.compute none true bs size ⟨x', fun _ => 1⟩ none ord = .ok (⟨fun t => (f t : ℤ), fun _ => 1⟩, st) ∧
      mmdCompute big K.sem.compute ⟨x, fun _ => 1⟩ ⟨fun t => x (f t), fun _ => 1⟩ bs = .ok r ∧
      r ≤ Real.sqrt (diagonal K / size) + 2 * Real.sqrt (lipSq K) * ε := by
  have hk := C08_psd K hc hd
  obtain ⟨-, hb⟩ := bounds K hc hK
  have hn : 0 < n := lt_of_lt_of_le hsize hle
  obtain ⟨f, st, h1, h2⟩ := C48_herding_rate_unique big K.sem.compute hk.1 bs hbs size hsize ⟨x', fun _ => 1⟩ (fun c => hk.2 n x' c)
    ⟨1, by simp⟩ (by simp [PosCount, hle]) none (by simp) ord hord (diagonal K) (fun j _ => (hb _ (0 : Vec d)).1.le)
  obtain ⟨r, r', h3, h4, h5⟩ := C83_rounded_data big K hc hd hK hn hsize x x' (fun _ => 1) f (fun _ => 1) (by simp) (by simp) (by simp; omega) (by simp; omega) bs hbs hε
  refine ⟨f, st, r, h1, h3, ?_⟩
  have h6 : r' ≤ Real.sqrt (diagonal K / size) := by
    rw [C07_compute big _ hn hsize _ _ (by simp; omega) (by simp; omega) bs hbs] at h4
    injection h4 with h4
    rw [← h4]
    refine Real.sqrt_le_sqrt (max_le ?_ (h2.trans ?_))
    · exact div_nonneg ((hb 0 0).2.1.trans (hb 0 0).2.2.1) (Nat.cast_nonneg _)
    · have : 0 ≤ avg (fun _ : Fin n => (1 : ℝ)) fun i => avg (fun _ : Fin n => (1 : ℝ)) fun j => K.sem.compute (x' i) (x' j) := by
        unfold avg
        refine div_nonneg (sum_nonneg fun i _ => mul_nonneg zero_le_one (div_nonneg (sum_nonneg fun j _ => mul_nonneg zero_le_one (hb _ _).2.1) ?_)) ?_ <;> simp
      gcongr
      linarith
  linarith [(abs_le.1 h5).2]

/-! ### The constants -/

namespace Stability

/-- The MMD between two points. -/
theorem mmd_points (big : ℝ) (k : X → X → ℝ) (hk : IsPSD k) (a b : X) :
    mmdCompute big k ⟨fun _ : Fin 1 => a, fun _ => 1⟩ ⟨fun _ : Fin 1 => b, fun _ => 1⟩ (.leaf none) = .ok (kernelDist k a b) := by
  obtain ⟨H, _, _, φ, hφ⟩ := hk.exists_feature
  rw [(C07_rkhs_distance big k hk one_pos one_pos ⟨fun _ : Fin 1 => a, fun _ => 1⟩ ⟨fun _ : Fin 1 => b, fun _ => 1⟩ (by simp) (by simp) (.leaf none)
    (Or.inl rfl)).2 H _ _ φ hφ, kernelDist_eq hφ]
  simp [meanEmbedding]

theorem one_sub_exp_ge {t : ℝ} (ht : 0 < t) : t / (1 + t) ≤ 1 - Real.exp (-t) := by
  have h1 : Real.exp (-t) ≤ 1 / (1 + t) := by
    rw [Real.exp_neg, ← one_div]
    exact one_div_le_one_div_of_le (by positivity) (by linarith [Real.add_one_le_exp t])
  have h2 : t / (1 + t) = 1 - 1 / (1 + t) := by field_simp; ring
  linarith

theorem sqDist_single (i : Fin d) (r : ℝ) : sqDist (0 : Vec d) (Pi.single i r) = r ^ 2 := by
  rw [sqDist, sum_eq_single i]
  · simp [pow_two]
  · intro j _ hj
    simp [Pi.single_eq_of_ne hj]
  · simp

theorem nrm_single (i : Fin d) {r : ℝ} (hr : 0 ≤ r) : nrm (0 : Vec d) (Pi.single i r) = r := by
  rw [nrm_eq, sqDist_single, Real.sqrt_sq hr]

theorem lt_sqrt_of {c r q : ℝ} (h : c ^ 2 * r ^ 2 < q) : |c| * |r| < Real.sqrt q := by
  rw [← abs_mul, ← Real.sqrt_sq_eq_abs]
  exact Real.sqrt_lt_sqrt (sq_nonneg _) (by rw [mul_pow]; exact h)

end Stability

/-- **C83.** The constant of the squared exponential kernel is the least one. -/
theorem C83_sharp (big l s : ℝ) (hc : (KExpr.squaredExponential l s : KExpr d).check = .ok ()) (i : Fin d) {c : ℝ}
    (hcs : c ^ 2 < lipSq (KExpr.squaredExponential l s : KExpr d)) : ∃ (a b : Vec d) (r : ℝ), a ≠ b ∧
      mmdCompute big (KExpr.squaredExponential l s : KExpr d).sem.compute ⟨fun _ : Fin 1 => a, fun _ => 1⟩ ⟨fun _ : Fin 1 => b, fun _ => 1⟩ (.leaf none) = .ok r ∧
      |c| * nrm a b < r := by
  have hl := checkPos_ok (bind_ok hc).1
  have hs := checkPos_ok (bind_ok hc).2
  simp only [lipSq] at hcs
  set t := (s / l ^ 2 - c ^ 2) / (2 * (c ^ 2 + 1)) with ht
  have ht0 : 0 < t := div_pos (by linarith) (by positivity)
  set r := l * Real.sqrt (2 * t) with hr
  have hr0 : 0 < r := by positivity
  have hr2 : r ^ 2 = l ^ 2 * (2 * t) := by rw [hr, mul_pow, Real.sq_sqrt (by positivity)]
  refine ⟨0, Pi.single i r, _, fun h => ?_, mmd_points big _ (C08_psd _ hc trivial) _ _, ?_⟩
  · have := congrFun h i
    simp at this
    exact hr0.ne this
  · rw [nrm_single i hr0.le, ← abs_of_pos hr0, kernelDist]
    refine lt_sqrt_of ?_
    rw [abs_of_pos hr0]
    have e0 : ∀ a : Vec d, sqDist a a = 0 := fun a => by simp [sqDist]
    simp only [KExpr.sem, squaredExponentialSem, e0, sqDist_single]
    have e1 : -r ^ 2 / (2 * l ^ 2) = -t := by rw [hr2]; field_simp
    have e2 := one_sub_exp_ge ht0
    have e3 : c ^ 2 * (1 + t) < s / l ^ 2 := by
      have : t * (2 * (c ^ 2 + 1)) = s / l ^ 2 - c ^ 2 := by rw [ht]; field_simp
      nlinarith [sq_nonneg c]
    have e4 : c ^ 2 * r ^ 2 < 2 * s * (t / (1 + t)) := by
      clear_value t r
      rw [lt_div_iff₀ (by positivity)] at e3
      have e5 : c ^ 2 * r ^ 2 < 2 * s * t / (1 + t) := by
        rw [hr2, lt_div_iff₀ (by positivity)]
        nlinarith
      rwa [mul_div_assoc] at e5
    rw [e1]
    simp only [neg_zero, zero_div, Real.exp_zero]
    nlinarith [mul_le_mul_of_nonneg_left e2 (show 0 ≤ 2 * s by positivity)]

/-- **C83.** The exponential and the Laplacian kernel have no such constant; there the MMD of two points is at most the square root of their
distance, times a constant. -/
theorem C83_rough (big l s : ℝ) (hc : (KExpr.exponential l s : KExpr d).check = .ok ()) :
    (∀ (i : Fin d) (c : ℝ), ∃ (a b : Vec d) (r r' : ℝ), a ≠ b ∧
      mmdCompute big (KExpr.exponential l s : KExpr d).sem.compute ⟨fun _ : Fin 1 => a, fun _ => 1⟩ ⟨fun _ : Fin 1 => b, fun _ => 1⟩ (.leaf none) = .ok r ∧
      mmdCompute big (KExpr.laplacian l s : KExpr d).sem.compute ⟨fun _ : Fin 1 => a, fun _ => 1⟩ ⟨fun _ : Fin 1 => b, fun _ => 1⟩ (.leaf none) = .ok r' ∧
      |c| * nrm a b < r ∧ |c| * nrm a b < r') ∧
    ∀ a b : Vec d, kernelDist (KExpr.exponential l s : KExpr d).sem.compute a b ≤ Real.sqrt (s / l ^ 2 * nrm a b) ∧
      kernelDist (KExpr.laplacian l s : KExpr d).sem.compute a b ≤ Real.sqrt (s / l ^ 2 * nrm1 a b) := by
  have hl := checkPos_ok (bind_ok hc).1
  have hs := checkPos_ok (bind_ok hc).2
  have e0 : ∀ a : Vec d, sqDist a a = 0 := fun a => by simp [sqDist]
  have en : ∀ a : Vec d, nrm a a = 0 := fun a => by rw [nrm_eq, e0, Real.sqrt_zero]
  have e1 : ∀ a : Vec d, nrm1 a a = 0 := fun a => by simp [nrm1]
  refine ⟨fun i c => ?_, fun a b => ⟨Real.sqrt_le_sqrt ?_, Real.sqrt_le_sqrt ?_⟩⟩
  · set t := s / (s + 4 * c ^ 2 * l ^ 4) with ht
    have ht0 : 0 < t := by positivity
    have ht1 : t ≤ 1 := by
      rw [ht, div_le_one (by positivity)]
      linarith [show 0 ≤ 4 * c ^ 2 * l ^ 4 by positivity]
    have ht2 : t * (s + 4 * c ^ 2 * l ^ 4) = s := by rw [ht]; field_simp
    set r := 2 * l ^ 2 * t with hr
    have hr0 : 0 < r := by positivity
    have hn1 : nrm1 (0 : Vec d) (Pi.single i r) = r := by
      rw [nrm1, sum_eq_single i]
      · simp [abs_of_pos hr0]
      · intro j _ hj
        simp [Pi.single_eq_of_ne hj]
      · simp
    have e2 : -r / (2 * l ^ 2) = -t := by rw [hr]; field_simp
    have e3 := one_sub_exp_ge ht0
    have e4 : c ^ 2 * r ^ 2 < 2 * s * (t / (1 + t)) := by
      rw [mul_div_assoc', lt_div_iff₀ (by positivity)]
      have h1 : c ^ 2 * r ^ 2 * (1 + t) = t * (4 * c ^ 2 * l ^ 4 * t) * (1 + t) := by rw [hr]; ring
      have h2 : 4 * c ^ 2 * l ^ 4 * t = s - s * t := by linarith
      rw [h1, h2]
      have h3 : 0 < s * t := by positivity
      nlinarith [mul_pos h3 ht0, mul_pos (mul_pos h3 ht0) ht0]
    refine ⟨0, Pi.single i r, _, _, fun h => ?_, mmd_points big _ (C08_psd _ hc trivial) _ _,
      mmd_points big _ (C08_psd (.laplacian l s) hc trivial) _ _, ?_, ?_⟩
    · have := congrFun h i
      simp at this
      exact hr0.ne this
    · rw [nrm_single i hr0.le]
      conv_lhs => rw [← abs_of_pos hr0]
      refine lt_sqrt_of ?_
      simp only [KExpr.sem, exponentialSem, en, nrm_single i hr0.le, e2]
      simp only [neg_zero, zero_div, Real.exp_zero]
      nlinarith [mul_le_mul_of_nonneg_left e3 (show 0 ≤ 2 * s by positivity)]
    · rw [nrm_single i hr0.le]
      conv_lhs => rw [← abs_of_pos hr0]
      refine lt_sqrt_of ?_
      simp only [KExpr.sem, laplacianSem, e1, hn1, e2]
      simp only [neg_zero, zero_div, Real.exp_zero]
      nlinarith [mul_le_mul_of_nonneg_left e3 (show 0 ≤ 2 * s by positivity)]
  · simp only [KExpr.sem, exponentialSem, en]
    simp only [neg_zero, zero_div, Real.exp_zero]
    have h1 := one_sub_exp_le (nrm a b / (2 * l ^ 2))
    rw [← neg_div] at h1
    have h2 : 2 * s * (nrm a b / (2 * l ^ 2)) = s / l ^ 2 * nrm a b := by field_simp
    nlinarith [mul_le_mul_of_nonneg_left h1 (show 0 ≤ 2 * s by positivity)]
  · simp only [KExpr.sem, laplacianSem, e1]
    simp only [neg_zero, zero_div, Real.exp_zero]
    have h1 := one_sub_exp_le (nrm1 a b / (2 * l ^ 2))
    rw [← neg_div] at h1
    have h2 : 2 * s * (nrm1 a b / (2 * l ^ 2)) = s / l ^ 2 * nrm1 a b := by field_simp
    nlinarith [mul_le_mul_of_nonneg_left h1 (show 0 ≤ 2 * s by positivity)]

/-! ### Cases -/

-- half of the mass at 0 goes to 1, half of it stays with the point at 2
example : IsPlan ![1, 1] ![1, 3] ![![1 / 4, 1 / 4], ![0, 1 / 2]] := by
  constructor
  · intro i j
    fin_cases i <;> fin_cases j <;> norm_num
  · intro i
    fin_cases i <;> norm_num [Fin.sum_univ_two]
  · intro i
    fin_cases i <;> norm_num [Fin.sum_univ_two]

-- a kernel of the class with a product, a sum and a power
example : Steady (.add (.mul (.squaredExponential 2 1) (.rationalQuadratic 1 1 3)) (.power (.pcimq 1 2) (.int 2)) : KExpr 3) := by
  simp [Steady]

example : lipSq (.add (.mul (.squaredExponential 2 1) (.rationalQuadratic 1 1 3)) (.power (.pcimq 1 2) (.int 2)) : KExpr 3) = 21 / 4 := by
  simp only [lipSq, diagonal, PyNum.toInt, show Int.toNat 2 = 2 from rfl]
  norm_num

theorem Stability.check_se : (KExpr.squaredExponential 2 1 : KExpr d).check = .ok () := by
  norm_num [KExpr.check, checkPos, Bind.bind, Except.bind]

-- data known up to a tenth, the coreset of rows 0 and 2 with weights 1 and 2
example := C83_rounded_data 1000 (.squaredExponential 2 1 : KExpr 1) Stability.check_se trivial trivial (n := 3) (m := 2) (by norm_num) (by norm_num)
  ![![0], ![1], ![3]] ![![0], ![1.1], ![2.9]] (fun _ => 1) ![0, 2] ![1, 2] (fun _ => by norm_num) (fun i => by fin_cases i <;> norm_num)
  (by simp) (by norm_num [Fin.sum_univ_two]) (.leaf none) (Or.inl rfl) (ε := 0.2) (fun i => by
    rw [nrm_eq, Real.sqrt_le_left (by norm_num)]
    fin_cases i <;> norm_num [sqDist, Fin.sum_univ_one])

example : lipSq (.squaredExponential 2 1 : KExpr 1) = 1 / 4 := by norm_num [lipSq]

example := C83_sharp 1000 2 1 Stability.check_se (0 : Fin 1) (c := 0.49) (by norm_num [lipSq])

example := C83_rough (d := 1) 1000 2 1 (Stability.check_se (d := 1))

example := C83_herding 1000 (.squaredExponential 2 1 : KExpr 1) Stability.check_se trivial trivial (n := 3)
  ![![0], ![1], ![3]] ![![0], ![1.1], ![2.9]] (ε := 0.2) (fun i => by
    rw [nrm_eq, Real.sqrt_le_left (by norm_num)]
    fin_cases i <;> norm_num [sqDist, Fin.sum_univ_one]) (.leaf none) (Or.inl rfl) 2 (by norm_num) (by norm_num) (List.finRange _) (List.mem_finRange)

example := C83_weights 1000 (fun a b : ℝ => a * b + 1) ((isPSD_rankOne fun x : ℝ => x).add (isPSD_const zero_le_one)) (n := 2) (by norm_num) (m := 1)
  (by norm_num) ![0, 1] ![1, 2] ![1, 1] ⟨![2], ![1]⟩ (by norm_num [Fin.sum_univ_two]) (by norm_num [Fin.sum_univ_two]) (by simp) (.leaf none) (Or.inl rfl)

end Coreax
