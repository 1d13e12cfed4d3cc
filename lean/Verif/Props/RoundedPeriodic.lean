import Verif.Model.RoundedPeriodic
import Verif.Props.RoundedMatern

/-!
# Rounding errors of the periodic and the Poisson kernel

The sine of a rounded number: the absolute error of the argument grows with the number of periods between the points, and so does the error of these kernels.
-/

namespace Coreax

open Spec

namespace Spec

/-- `jnp.sin`, `jnp.cos`: an absolute error of `c` roundings of one. -/
def TrigRounding (u : ℝ) (c : ℕ) (f g : ℝ → ℝ) : Prop := ∀ a, Within u c 1 (f a) (g a)

/-- The size of the periodic kernel: the output scale, times the number of periods between the points once there are many. -/
noncomputable def periodicSize (l s p : ℝ) {d : ℕ} (x y : Vec d) : ℝ := s * max 1 (2 * max 1 |Real.pi * Real.sqrt (∑ i, (x i - y i) ^ 2) / p| / l ^ 2)

end Spec

namespace RPeriodic

variable {u : ℝ} {o : FloatOps ℝ} {pw : ℕ → ℝ → ℝ} {sn cs ex : ℝ → ℝ} {pi l s p r : ℝ} {d c : ℕ}

theorem norm_near (hu0 : 0 ≤ u) (hu : u < 1) (ho : Rounding u o) (hd : 0 < d) (x y : Vec d) : Near u (d + 3) (nrm x y) (flNorm o x y) := by
  have := RExp.distance_near hu0 hu ho hd .exponential x y
  have e : ExpDistance .exponential x y = nrm x y := by simp [ExpDistance, nrm, pow_two]
  rwa [e] at this

theorem cos_sub (a b : ℝ) : |Real.cos a - Real.cos b| ≤ |a - b| := by
  have := Real.lipschitzWith_cos.dist_le_mul a b
  simpa [Real.dist_eq] using this

theorem sin_sq_sub (a b : ℝ) : |Real.sin a ^ 2 - Real.sin b ^ 2| ≤ |a - b| := by
  have h := cos_sub (2 * b) (2 * a)
  have e : Real.sin a ^ 2 - Real.sin b ^ 2 = (Real.cos (2 * b) - Real.cos (2 * a)) / 2 := by
    rw [Real.cos_two_mul, Real.cos_two_mul]
    linarith [Real.sin_sq_add_cos_sq a, Real.sin_sq_add_cos_sq b]
  rw [e, abs_div, abs_two]
  have : |2 * b - 2 * a| = 2 * |a - b| := by rw [← mul_sub, abs_mul, abs_two, abs_sub_comm]
  linarith

theorem exp_sub_abs {a b : ℝ} (ha : a ≤ 0) (hb : b ≤ 0) : |Real.exp a - Real.exp b| ≤ |a - b| := by
  have key : ∀ {v w : ℝ}, v ≤ 0 → Real.exp v - Real.exp w ≤ |v - w| := by
    intro v w hv
    have h := RExp.exp_sub_le (-v) (-w)
    rw [neg_neg, neg_neg] at h
    have h1 : Real.exp v ≤ 1 := Real.exp_le_one_iff.2 hv
    have h2 : Real.exp v * (-w - -v) ≤ Real.exp v * |v - w| := mul_le_mul_of_nonneg_left (by linarith [le_abs_self (v - w)]) (Real.exp_pos v).le
    have h3 := mul_le_mul_of_nonneg_right h1 (abs_nonneg (v - w))
    linarith
  rw [abs_le]
  constructor
  · have := key (v := b) (w := a) hb
    rw [abs_sub_comm] at this
    linarith
  · exact key ha

/-- A bounded function that is 1-Lipschitz. -/
theorem lipschitz_within (hu0 : 0 ≤ u) (hu : u < 1) {q : ℕ} {A a a' : ℝ} {f : ℝ → ℝ} (h : Within u q A a a') (h1 : |f a| ≤ 1) (hf : |f a' - f a| ≤ |a' - a|) :
    Within u q (max 1 A) (f a) (f a') := by
  refine ⟨h1.trans (le_max_left _ _), hf.trans (h.2.trans ?_)⟩
  exact mul_le_mul_of_nonneg_left (le_max_right _ _) (by linarith [Within.one_le hu0 hu q])

theorem one_le_size (hu0 : 0 ≤ u) (hu : u < 1) (q : ℕ) (A : ℝ) : 1 ≤ 1 / (1 - u) ^ q * max 1 A := by
  have h1 := Within.one_le hu0 hu q
  have h2 : (1 : ℝ) ≤ max 1 A := le_max_left _ _
  nlinarith

theorem body_within (hu0 : 0 ≤ u) (hu : u < 1) (ho : Rounding u o) (hd : 0 < d) (hpi : Near u 1 Real.pi pi) (hp : p ≠ 0) (x y : Vec d) :
    Within u (d + 6) |Real.pi * nrm x y / p| (Real.pi * nrm x y / p) (o.div (o.mul pi (flNorm o x y)) p) := by
  have h0 : 0 ≤ nrm x y := Real.sqrt_nonneg _
  have h1 := Near.round_after hu0 hu (by positivity) (Near.mul hu Real.pi_pos.le h0 hpi (norm_near hu0 hu ho hd x y)) (ho.mul _ _)
  have h2 := Within.mul hu0 hu (Within.of_near hu0 hu (by positivity) h1) (Within.refl u (1 / p))
  rw [mul_one_div, mul_one_div] at h2
  have h3 := Within.round_after hu0 hu h2 (ho.div _ _ hp)
  have e : Real.pi * nrm x y * |1 / p| = |Real.pi * nrm x y / p| := by rw [← mul_one_div (Real.pi * nrm x y), abs_mul, abs_of_nonneg (by positivity : 0 ≤ Real.pi * nrm x y)]
  rw [e] at h3
  rwa [show 1 + (d + 3) + 1 + 0 + 1 = d + 6 by omega] at h3

theorem pw_nonneg (hu : u ≤ 1 / 2) (hpw : SignedPow u pw) (a : ℝ) : 0 ≤ pw 2 a := by
  have h := (hpw 2 (by norm_num) a).2
  have e : (1 / (1 - u) ^ (2 - 1) - 1 : ℝ) ≤ 1 := by
    have : (1 - u) ^ (2 - 1) = 1 - u := by norm_num
    rw [this, sub_le_iff_le_add, div_le_iff₀ (by linarith)]
    linarith
  rw [sq_abs] at h
  have h2 := mul_le_mul_of_nonneg_right e (sq_nonneg a)
  linarith [neg_abs_le (pw 2 a - a ^ 2)]

end RPeriodic

open RPeriodic

variable {u : ℝ} {o : FloatOps ℝ} {pw : ℕ → ℝ → ℝ} {sn cs ex : ℝ → ℝ} {rp : ℝ → ℝ → ℝ} {pi l s p r : ℝ} {d c : ℕ}

/-- C121, the periodic kernel: the error relative to a size that grows linearly with the number of periods between the points. -/
theorem C121_periodic (hu0 : 0 ≤ u) (hu : u ≤ 1 / 2) (ho : Rounding u o) (hpw : PowRounding u pw) (hpw' : SignedPow u pw) (hsn : TrigRounding u c Real.sin sn) (hex : ExpRounding u c ex)
    (hpi : Near u 1 Real.pi pi) (hd : 0 < d) (hl : 0 < l) (hs : 0 < s) (hp : p ≠ 0) (x y : Vec d) :
    Within u (d + 3 * c + 11) (periodicSize l s p x y) ((periodicSem l s p).compute x y) (flPeriodic o pw sn ex pi l s p x y) := by
  have hu1 : u < 1 := by linarith
  have hb := body_within hu0 hu1 ho hd hpi hp x y
  have e : nrm x y = Real.sqrt (∑ i, (x i - y i) ^ 2) := by simp [nrm, pow_two]
  simp only [periodicSize, periodicSem, flPeriodic, ← e]
  generalize Real.pi * nrm x y / p = z at hb ⊢
  generalize o.div (o.mul pi (flNorm o x y)) p = z' at hb ⊢
  have h1 := lipschitz_within hu0 hu1 (f := fun a => Real.sin a ^ 2) hb (by
    rw [abs_of_nonneg (sq_nonneg _)]
    linarith [Real.sin_sq_add_cos_sq z, sq_nonneg (Real.cos z)]) (sin_sq_sub z' z)
  have h2 := RKernel.within_pw hu0 hu1 hpw' (hsn z') (n := 2) (by norm_num)
  rw [one_pow] at h2
  have h3 := Within.trans hu0 hu1 h1 h2 (one_le_size hu0 hu1 _ _)
  have h4 := Within.round_after hu0 hu1 (Within.mul hu0 hu1 (Within.refl u (-2)) h3) (ho.mul _ _)
  have hl2 : 0 < l ^ 2 := by positivity
  have hL := hpw 2 (by norm_num) l hl.le
  have hL0 := Near.pos hu1 hl2 hL
  have h5 := Within.round_after hu0 hu1 (Within.div hu0 hu1 hl2 h4 hL) (ho.div _ _ hL0.ne')
  rw [abs_neg, abs_two] at h5
  have hv := pw_nonneg hu hpw' (sn z')
  have hm : o.mul (-2) (pw 2 (sn z')) ≤ 0 := by
    have := (abs_le.1 (ho.mul (-2) (pw 2 (sn z')))).2
    rw [abs_mul, abs_neg, abs_two, abs_of_nonneg hv] at this
    nlinarith
  have hq : o.div (o.mul (-2) (pw 2 (sn z'))) (pw 2 l) ≤ 0 := by
    have h6 : o.mul (-2) (pw 2 (sn z')) / pw 2 l ≤ 0 := div_nonpos_of_nonpos_of_nonneg hm hL0.le
    have := (abs_le.1 (ho.div (o.mul (-2) (pw 2 (sn z'))) (pw 2 l) hL0.ne')).2
    rw [abs_of_nonpos h6] at this
    nlinarith
  have hq0 : -2 * Real.sin z ^ 2 / l ^ 2 ≤ 0 := div_nonpos_of_nonpos_of_nonneg (by nlinarith [sq_nonneg (Real.sin z)]) hl2.le
  rw [ho.two]
  generalize o.div (o.mul (-2) (pw 2 (sn z'))) (pw 2 l) = w at h5 hq ⊢
  have h7 := lipschitz_within hu0 hu1 (f := Real.exp) h5 (by
    rw [abs_of_pos (Real.exp_pos _)]
    exact Real.exp_le_one_iff.2 hq0) (exp_sub_abs hq hq0)
  have h8 : Within u c 1 (Real.exp w) (ex w) := by
    have h := Within.of_near hu0 hu1 (Real.exp_pos w).le (hex w hq)
    have h9 : Real.exp w ≤ 1 := Real.exp_le_one_iff.2 hq
    refine ⟨h.1.trans h9, h.2.trans ?_⟩
    exact mul_le_mul_of_nonneg_left h9 (by linarith [Within.one_le hu0 hu1 c])
  have h9 := Within.trans hu0 hu1 h7 h8 (one_le_size hu0 hu1 _ _)
  have h10 := Within.round_after hu0 hu1 (Within.mul hu0 hu1 (Within.refl u s) h9) (ho.mul _ _)
  rw [abs_of_pos hs] at h10
  exact Within.mono hu0 hu1 h10 (by omega)

/-- C121, MMD with the periodic kernel. -/
theorem C121_mmd (hu0 : 0 ≤ u) (hu : u ≤ 1 / 2) (ho : Rounding u o) (hpw : PowRounding u pw) (hpw' : SignedPow u pw) (hsn : TrigRounding u c Real.sin sn) (hex : ExpRounding u c ex)
    (hpi : Near u 1 Real.pi pi) (hd : 0 < d) (hl : 0 < l) (hs : 0 < s) (hp : p ≠ 0) (big : ℝ) {n m : ℕ} (x : Data n (Vec d) ℝ) (y : Data m (Vec d) ℝ)
    (hx0 : ∀ i, 0 ≤ x.weights i) (hx : 0 < ∑ i, x.weights i) (hy0 : ∀ i, 0 ≤ y.weights i) (hy : 0 < ∑ i, y.weights i)
    (bs bs' : PyTree (Option ℤ)) (a b : Option ℤ) (hab : treeLeavesRepeat bs 2 = [a, b]) (hbs' : ValidBlock bs') :
    ∃ v t, flMMD o (flPeriodic o pw sn ex pi l s p) x y bs = .ok v ∧ mmdCompute big (periodicSem l s p).compute x y bs' = .ok t ∧
      |v - t| ≤ u * t + (1 + u) * Real.sqrt ((1 / (1 - u) ^ (mmdRoundings (d + 3 * c + 11) n m a b + 2) - 1)
        * ((avg x.weights fun i => avg x.weights fun j => periodicSize l s p (x.data i) (x.data j)) + (avg y.weights fun i => avg y.weights fun j => periodicSize l s p (y.data i) (y.data j))
          + 2 * avg x.weights fun i => avg y.weights fun j => periodicSize l s p (x.data i) (y.data j))) :=
  C114_mmd hu0 (by linarith) ho big (periodicSize l s p) (periodicSem l s p).compute (flPeriodic o pw sn ex pi l s p) (d + 3 * c + 11)
    (fun x y => C121_periodic hu0 hu ho hpw hpw' hsn hex hpi hd hl hs hp x y) x y hx0 hx hy0 hy bs bs' a b hab hbs'

/-- C121, a locally periodic kernel (`LocallyPeriodicKernel`: the product with a squared exponential kernel). -/
theorem C121_locally_periodic (hu0 : 0 ≤ u) (hu : u ≤ 1 / 2) (ho : Rounding u o) (hpw : PowRounding u pw) (hpw' : SignedPow u pw) (hsn : TrigRounding u c Real.sin sn) (hex : ExpRounding u c ex)
    (hpi : Near u 1 Real.pi pi) (hd : 0 < d) {l' s' : ℝ} (hl : 0 < l) (hs : 0 < s) (hp : p ≠ 0) (hl' : 0 < l') (hs' : 0 < s') (leaf : KExpr d → Vec d → Vec d → ℝ) (x y : Vec d) :
    Within u (2 * d + 4 * c + 18) (periodicSize l s p x y * s') ((KExpr.mul (.periodic l s p) (.squaredExponential l' s')).sem.compute x y)
      (flKernel o pw rp ex (periodicLeaf o pw sn ex pi leaf) (.mul (.periodic l s p) (.squaredExponential l' s')) x y) := by
  have hu1 : u < 1 := by linarith
  have h1 := C121_periodic hu0 hu ho hpw hpw' hsn hex hpi hd hl hs hp x y
  have h2 := C116_kernel hu0 hu1 ho hpw hex hd hl' hs' .squaredExponential x y
  have h3 := Within.round_after hu0 hu1 (Within.mul hu0 hu1 h1 h2) (ho.mul _ _)
  have ne : (KExpr.periodic l s p : KExpr d) ≠ .squaredExponential l' s' := by simp
  simp only [flKernel, ne, if_false, periodicLeaf]
  have e : (KExpr.mul (.periodic l s p) (.squaredExponential l' s') : KExpr d).sem.compute x y = (periodicSem l s p).compute x y * ExpKind.squaredExponential.compute l' s' x y := by
    simp [KExpr.sem, mulSem, ExpKind.compute]
  rw [e]
  exact Within.mono hu0 hu1 h3 (by simp only [expRoundings]; omega)

/-- Exact operations except for products, which come out low. -/
noncomputable def lowProducts (u : ℝ) : FloatOps ℝ := { roundedOps id with mul := fun a b => (1 - u) * (a * b) }

/-- C121, the growth is real: in an arithmetic that meets the contract with `u = 2^-(m+1)`, sine, exponential, powers and `jnp.pi` exact, there are points `2^m` periods apart whose kernel value is one
and whose computed value is at most `exp(-1)`. -/
theorem C121_growth (m : ℕ) :
    ∃ (o : FloatOps ℝ) (pw : ℕ → ℝ → ℝ), Rounding ((1 / 2) ^ (m + 1)) o ∧ PowRounding ((1 / 2) ^ (m + 1)) pw ∧ SignedPow ((1 / 2) ^ (m + 1)) pw ∧
      ∃ x y : Vec 1, (periodicSem 1 1 1).compute x y = 1 ∧ flPeriodic o pw Real.sin Real.exp Real.pi 1 1 1 x y ≤ Real.exp (-1) := by
  have hu0 : (0 : ℝ) < (1 / 2) ^ (m + 1) := by positivity
  have hu2 : ((1 : ℝ) / 2) ^ (m + 1) ≤ 1 / 2 := by
    rw [pow_succ]
    have : ((1 : ℝ) / 2) ^ m ≤ 1 := pow_le_one₀ (by norm_num) (by norm_num)
    linarith
  have hut : ((1 : ℝ) / 2) ^ (m + 1) * 2 ^ m = 1 / 2 := by
    rw [pow_succ, mul_right_comm, ← mul_pow]
    norm_num
  generalize ((1 : ℝ) / 2) ^ (m + 1) = u at hu0 hu2 hut ⊢
  have hid : ∀ a : ℝ, |id a - a| ≤ u * |a| := fun a => by simpa using mul_nonneg hu0.le (abs_nonneg a)
  have hr := roundedOps_rounding hid
  refine ⟨lowProducts u, fun n a => a ^ n, ⟨hr.zero, hr.two, hr.add, hr.sub, ?_, hr.div, hr.sum, hr.matvec, hr.dot, hr.root⟩,
    fun n _ a ha => Near.mono hu0.le (by linarith) (pow_nonneg ha _) (Near.refl u _) (Nat.zero_le _),
    fun n _ a => by rw [← abs_pow]; exact Within.mono hu0.le (by linarith) (Within.refl u _) (Nat.zero_le _), fun _ => 2 ^ m, fun _ => 0, ?_, ?_⟩
  · intro a b
    change |(1 - u) * (a * b) - a * b| ≤ _
    rw [show (1 - u) * (a * b) - a * b = -(u * (a * b)) by ring, abs_neg, abs_mul, abs_of_pos hu0]
  · have e : nrm (fun _ : Fin 1 => (2 : ℝ) ^ m) (fun _ => 0) = ((2 ^ m : ℕ) : ℝ) := by
      simp [nrm]
    simp only [periodicSem, e, div_one, one_mul, mul_comm Real.pi, Real.sin_nat_mul_pi]
    norm_num
  · have e : flNorm (lowProducts u) (fun _ : Fin 1 => (2 : ℝ) ^ m) (fun _ => 0) = 2 ^ m := by
      have h2 : (0 : ℝ) ≤ 2 ^ m := by positivity
      simp [flNorm, flSqDist, lowProducts, roundedOps, List.ofFn_succ, max_eq_right (mul_nonneg h2 h2), Real.sqrt_mul_self h2]
    have hz : (1 - u) * (Real.pi * 2 ^ m) / 1 = ((2 ^ m : ℕ) : ℝ) * Real.pi - Real.pi / 2 := by
      push_cast
      linear_combination (-Real.pi) * hut
    have hs : Real.sin ((1 - u) * (Real.pi * 2 ^ m) / 1) ^ 2 = 1 := by
      rw [hz, Real.sin_sub_pi_div_two, neg_sq, Real.cos_sq', Real.sin_nat_mul_pi]
      norm_num
    change (1 - u) * (1 * Real.exp ((1 - u) * (-2 * Real.sin ((1 - u) * (Real.pi * flNorm (lowProducts u) (fun _ : Fin 1 => (2 : ℝ) ^ m) (fun _ => 0)) / 1) ^ 2) / 1 ^ 2)) ≤ _
    rw [e, hs]
    have h1 : Real.exp ((1 - u) * (-2 * 1) / 1 ^ 2) ≤ Real.exp (-1) := Real.exp_le_exp.2 (by norm_num; linarith)
    have h2 := Real.exp_pos ((1 - u) * (-2 * 1) / 1 ^ 2)
    nlinarith

/-- C121, the Poisson kernel: as long as the denominator is computed to half of its least value `(1 - r)²`, the error is of the order of its inverse square. -/
theorem C121_poisson (hu0 : 0 ≤ u) (hu : u < 1) (ho : Rounding u o) (hpw : PowRounding u pw) (hcs : TrigRounding u c Real.cos cs) (hd : 0 < d) (hr : 0 < r) (hr1 : r < 1) (hs : 0 < s)
    (x y : Vec d)
    (h : (1 / (1 - u) ^ (d + c + 7) - 1) * (1 + 2 * r * max 1 (Real.sqrt (∑ i, (x i - y i) ^ 2)) + r ^ 2) ≤ (1 - r) ^ 2 / 2) :
    |flPoisson o pw cs r s x y - (poissonSem r s).compute x y|
      ≤ 2 * s * ((1 / (1 - u) ^ (d + c + 7) - 1) * (1 + 2 * r * max 1 (Real.sqrt (∑ i, (x i - y i) ^ 2)) + r ^ 2) / (1 - 2 * r * Real.cos (Real.sqrt (∑ i, (x i - y i) ^ 2)) + r ^ 2) ^ 2
        + u / (1 - 2 * r * Real.cos (Real.sqrt (∑ i, (x i - y i) ^ 2)) + r ^ 2)) := by
  have e : nrm x y = Real.sqrt (∑ i, (x i - y i) ^ 2) := by simp [nrm, pow_two]
  rw [← e] at h ⊢
  have h0 : 0 ≤ nrm x y := Real.sqrt_nonneg _
  have hn := Within.of_near hu0 hu h0 (norm_near hu0 hu ho hd x y)
  have h1 := lipschitz_within hu0 hu (f := Real.cos) hn (Real.abs_cos_le_one _) (cos_sub _ _)
  have h2 := Within.trans hu0 hu h1 (hcs (flNorm o x y)) (one_le_size hu0 hu _ _)
  have h3 := Within.round_after hu0 hu (Within.refl u (2 * r)) (ho.mul 2 r)
  have h4 := Within.round_after hu0 hu (Within.mul hu0 hu h3 h2) (ho.mul _ _)
  have h5 := Within.round_after hu0 hu (Within.sub (Within.mono hu0 hu (Within.refl u 1) (Nat.zero_le _)) h4) (ho.sub _ _)
  have hp2 := Within.of_near hu0 hu (by positivity) (hpw 2 (by norm_num) r hr.le)
  have h6 := Within.round_after hu0 hu (Within.add h5 (Within.mono hu0 hu hp2 (by omega))) (ho.add _ _)
  rw [abs_one, abs_of_pos (by positivity : 0 < 2 * r), show 0 + 1 + (d + 3 + c) + 1 + 1 + 1 = d + c + 7 by omega] at h6
  have hb : flPoissonBody o pw cs r x y = o.add (o.sub 1 (o.mul (o.mul 2 r) (cs (flNorm o x y)))) (pw 2 r) := by rw [flPoissonBody, ho.two]
  rw [← hb] at h6
  have hD : (1 - r) ^ 2 ≤ 1 - 2 * r * Real.cos (nrm x y) + r ^ 2 := by nlinarith [Real.cos_le_one (nrm x y)]
  have hD0 : 0 < (1 - r) ^ 2 := by have : 0 < 1 - r := by linarith
                                   positivity
  simp only [flPoisson, poissonSem]
  have h7 := h6.2
  generalize (1 / (1 - u) ^ (d + c + 7) - 1) * (1 + 2 * r * max 1 (nrm x y) + r ^ 2) = E at h h7 ⊢
  generalize 1 - 2 * r * Real.cos (nrm x y) + r ^ 2 = D at hD h7 ⊢
  generalize flPoissonBody o pw cs r x y = D' at h7 ⊢
  have hDp : 0 < D := by linarith
  have hD' : D / 2 ≤ D' := by linarith [(abs_le.1 h7).1]
  have hDp' : 0 < D' := by linarith
  have h8 := ho.div s D' hDp'.ne'
  rw [abs_of_pos (by positivity : 0 < s / D')] at h8
  have hi : s / D' ≤ 2 * s / D := by
    rw [div_le_div_iff₀ hDp' hDp]
    nlinarith
  have h9 : |s / D' - s / D| ≤ 2 * s * E / D ^ 2 := by
    have e1 : s / D' - s / D = (s / D') * ((D - D') / D) := by field_simp
    rw [e1, abs_mul, abs_of_pos (by positivity : 0 < s / D'), abs_div, abs_of_pos hDp, abs_sub_comm]
    calc s / D' * (|D' - D| / D) ≤ 2 * s / D * (E / D) := mul_le_mul hi (div_le_div_of_nonneg_right h7 hDp.le) (by positivity) (by positivity)
      _ = 2 * s * E / D ^ 2 := by field_simp
  have h10 : u * (s / D') ≤ u * (2 * s / D) := mul_le_mul_of_nonneg_left hi hu0
  have h11 : |o.div s D' - s / D| ≤ |o.div s D' - s / D'| + |s / D' - s / D| := by simpa using abs_add_le (o.div s D' - s / D') (s / D' - s / D)
  calc _ ≤ u * (2 * s / D) + 2 * s * E / D ^ 2 := by linarith
    _ = _ := by ring

/-! ### Cases -/

theorem binarySin : TrigRounding ((1 / 2) ^ 24) 1 Real.sin fun a => binaryRound 23 (Real.sin a) := fun a => by
  have := Within.round_after (by norm_num) (by norm_num) (Within.refl ((1 / 2) ^ 24) (Real.sin a)) (binaryRound_error 23 (Real.sin a))
  refine ⟨Real.abs_sin_le_one a, this.2.trans (mul_le_mul_of_nonneg_left (Real.abs_sin_le_one a) (by norm_num))⟩

theorem binaryCos : TrigRounding ((1 / 2) ^ 24) 1 Real.cos fun a => binaryRound 23 (Real.cos a) := fun a => by
  have := Within.round_after (by norm_num) (by norm_num) (Within.refl ((1 / 2) ^ 24) (Real.cos a)) (binaryRound_error 23 (Real.cos a))
  refine ⟨Real.abs_cos_le_one a, this.2.trans (mul_le_mul_of_nonneg_left (Real.abs_cos_le_one a) (by norm_num))⟩

theorem binaryPi : Near ((1 / 2) ^ 24) 1 Real.pi (binaryRound 23 Real.pi) := Near.round (by norm_num) (by norm_num) Real.pi_pos.le (binaryRound_error 23 _)

example := C121_periodic (u := (1 / 2) ^ 24) (by norm_num) (by norm_num) (roundedOps_rounding fun a => binaryRound_error 23 a)
    (roundedPow_rounding (by norm_num) (by norm_num) fun a => binaryRound_error 23 a) (roundedPow_signed (by norm_num) (by norm_num) fun a => binaryRound_error 23 a)
    binarySin binaryExp_rounding binaryPi (d := 3) (by norm_num) (l := 1 / 2) (s := 3) (p := -2) (by norm_num) (by norm_num) (by norm_num) ![0, 1, 2] ![1 / 3, -1, 7]

example := C121_mmd (u := (1 / 2) ^ 24) (by norm_num) (by norm_num) (roundedOps_rounding fun a => binaryRound_error 23 a)
    (roundedPow_rounding (by norm_num) (by norm_num) fun a => binaryRound_error 23 a) (roundedPow_signed (by norm_num) (by norm_num) fun a => binaryRound_error 23 a)
    binarySin binaryExp_rounding binaryPi (d := 2) (by norm_num) (l := 1 / 2) (s := 3) (p := 5) (by norm_num) (by norm_num) (by norm_num) 1000
    (n := 2) (m := 1) ⟨![![0, 1], ![1 / 3, -1]], fun _ => 1⟩ ⟨![![5, 7]], fun _ => 2⟩
    (fun _ => zero_le_one) (by simp) (fun _ => by norm_num) (by simp) (.leaf (some 2)) (.leaf none) (some 2) (some 2) rfl (.inl rfl)

example := C121_locally_periodic (u := (1 / 2) ^ 24) (rp := fun _ _ => 0) (by norm_num) (by norm_num) (roundedOps_rounding fun a => binaryRound_error 23 a)
    (roundedPow_rounding (by norm_num) (by norm_num) fun a => binaryRound_error 23 a) (roundedPow_signed (by norm_num) (by norm_num) fun a => binaryRound_error 23 a)
    binarySin binaryExp_rounding binaryPi (d := 1) (by norm_num) (l := 1 / 2) (s := 3) (p := 5) (l' := 1) (s' := 2) (by norm_num) (by norm_num) (by norm_num) (by norm_num) (by norm_num)
    (fun _ _ _ => 0) ![0] ![1 / 3]

/-- Single precision: 8388608 periods apart. -/
example := C121_growth 23

/-- Index a half, points at distance one, single precision. -/
example := C121_poisson (u := (1 / 2) ^ 24) (by norm_num) (by norm_num) (roundedOps_rounding fun a => binaryRound_error 23 a)
    (roundedPow_rounding (by norm_num) (by norm_num) fun a => binaryRound_error 23 a) binaryCos (d := 1) (by norm_num) (r := 1 / 2) (s := 2)
    (by norm_num) (by norm_num) (by norm_num) ![1] ![2] (by norm_num)

end Coreax
