import Verif.Model.RoundedExp
import Verif.Props.RoundedPcimq
import Verif.Props.KernelSums

/-!
# Rounding errors of the exponential, the Laplacian and the squared exponential kernel, and of the MMD with them

A relative error of the exponent is not a relative error of the exponential. The error is small relative to the output scale, at any distance; it is not small relative to the
value of the kernel.
-/

namespace Coreax

open Spec

namespace Spec

/-- `jnp.exp` of a number that is not positive is accurate to `c` roundings. -/
def ExpRounding (u : ℝ) (c : ℕ) (ex : ℝ → ℝ) : Prop := ∀ a, a ≤ 0 → Near u c (Real.exp a) (ex a)

/-- The distance in the exponent, by its formula. -/
noncomputable def ExpDistance : ExpKind → {d : ℕ} → Vec d → Vec d → ℝ
  | .exponential, _, x, y => Real.sqrt (∑ i, (x i - y i) ^ 2)
  | .laplacian, _, x, y => ∑ i, |x i - y i|
  | .squaredExponential, _, x, y => ∑ i, (x i - y i) ^ 2

end Spec

/-- The number of roundings in the exponent, in dimension `d`. -/
def expRoundings : ExpKind → ℕ → ℕ
  | .exponential, d => d + 6
  | .laplacian, d => d + 3
  | .squaredExponential, d => d + 5

namespace RExp

variable {u : ℝ} {o : FloatOps ℝ} {pw : ℕ → ℝ → ℝ} {ex : ℝ → ℝ} {l s : ℝ} {d c : ℕ}

theorem exp_sub_le (a b : ℝ) : Real.exp (-a) - Real.exp (-b) ≤ Real.exp (-a) * (b - a) := by
  have h := Real.add_one_le_exp (-(b - a))
  have h2 : Real.exp (-b) = Real.exp (-a) * Real.exp (-(b - a)) := by rw [← Real.exp_add]; congr 1; ring
  rw [h2]
  nlinarith [Real.exp_pos (-a)]

theorem mul_exp_le (a : ℝ) : a * Real.exp (-a) ≤ 1 := by
  rw [Real.exp_neg, ← div_eq_mul_inv, div_le_one (Real.exp_pos a)]
  linarith [Real.add_one_le_exp a]

/-- An exponential of a number with `p` roundings. -/
theorem exp_within (hu0 : 0 ≤ u) (hu : u < 1) {p : ℕ} {z z' : ℝ} (hz : 0 ≤ z) (h : Near u p z z') : Within u p 1 (Real.exp (-z)) (Real.exp (-z')) := by
  have hr : 0 < (1 - u) ^ p := pow_pos (by linarith) _
  have hr1 : (1 - u) ^ p ≤ 1 := pow_le_one₀ (by linarith) (by linarith)
  obtain ⟨h1, h2⟩ := h
  unfold Within
  rw [mul_one]
  generalize (1 - u) ^ p = r at *
  have f : 0 ≤ 1 / r - 1 := by rw [sub_nonneg, le_div_iff₀ hr]; linarith
  refine ⟨?_, abs_le.2 ⟨?_, ?_⟩⟩
  · rw [abs_of_pos (Real.exp_pos _)]
    exact Real.exp_le_one_iff.2 (by linarith)
  · have a := exp_sub_le z z'
    have b : z' - z ≤ (1 / r - 1) * z := by
      have : z' ≤ z / r := by rw [le_div_iff₀ hr]; linarith
      calc z' - z ≤ z / r - z := by linarith
        _ = _ := by ring
    have e := mul_le_mul_of_nonneg_left b (Real.exp_pos (-z)).le
    have g := mul_le_mul_of_nonneg_left (mul_exp_le z) f
    have : Real.exp (-z) * ((1 / r - 1) * z) = (1 / r - 1) * (z * Real.exp (-z)) := by ring
    linarith
  · have a := exp_sub_le (r * z) z
    have b : Real.exp (-z') ≤ Real.exp (-(r * z)) := Real.exp_le_exp.2 (by linarith)
    have g := mul_le_mul_of_nonneg_left (mul_exp_le (r * z)) f
    have : Real.exp (-(r * z)) * (z - r * z) = (1 / r - 1) * (r * z * Real.exp (-(r * z))) := by field_simp
    linarith

theorem distance_nonneg (K : ExpKind) (x y : Vec d) : 0 ≤ ExpDistance K x y := by
  cases K
  · exact Real.sqrt_nonneg _
  · exact Finset.sum_nonneg fun i _ => abs_nonneg _
  · exact Finset.sum_nonneg fun i _ => sq_nonneg _

theorem compute_eq (K : ExpKind) (x y : Vec d) : K.compute l s x y = s * Real.exp (-(ExpDistance K x y / (2 * l ^ 2))) := by
  cases K <;> simp [ExpKind.compute, exponentialSem, laplacianSem, squaredExponentialSem, ExpDistance, nrm, nrm1, sqDist, neg_div, pow_two]

theorem norm1_near (hu0 : 0 ≤ u) (hu : u < 1) (ho : Rounding u o) (hd : 0 < d) (x y : Vec d) : Near u d (∑ i, |x i - y i|) (flNorm1 o x y) := by
  obtain ⟨D, rfl⟩ : ∃ D, d = D + 1 := ⟨d - 1, by omega⟩
  have h2 := (RSum.near hu0 hu (ho.sum fun i => |o.sub (x i) (y i)|) (by
    intro a ha
    obtain ⟨i, rfl⟩ := List.mem_ofFn.1 ha
    exact abs_nonneg _)).2
  rw [List.length_ofFn, List.sum_ofFn] at h2
  have h3 := Near.trans hu (Near.sum Finset.univ _ _ fun i _ => Pcimq.diff_abs hu0 hu ho (x i) (y i)) h2
  rwa [show 1 + (D + 1 - 1) = D + 1 by omega] at h3

/-- The distance as computed. -/
def flDistance (o : FloatOps ℝ) : ExpKind → {d : ℕ} → Vec d → Vec d → ℝ
  | .exponential, _, x, y => flNorm o x y
  | .laplacian, _, x, y => flNorm1 o x y
  | .squaredExponential, _, x, y => flSqDist o x y

theorem distance_near (hu0 : 0 ≤ u) (hu : u < 1) (ho : Rounding u o) (hd : 0 < d) (K : ExpKind) (x y : Vec d) :
    Near u (expRoundings K d - 3) (ExpDistance K x y) (flDistance o K x y) := by
  have h1 := Pcimq.sqDist_near hu0 hu ho hd x y
  have e : sqDist x y = ∑ i, (x i - y i) ^ 2 := by simp [sqDist, pow_two]
  have hD : 0 ≤ ∑ i, (x i - y i) ^ 2 := Finset.sum_nonneg fun i _ => sq_nonneg _
  rw [e] at h1
  cases K
  · have h2 := ho.root (flSqDist o x y)
    rw [max_eq_right (Near.nonneg hu hD h1)] at h2
    exact Near.round_after hu0 hu (Real.sqrt_nonneg _) (Pcimq.near_sqrt hu0 hu h1) (by rw [abs_of_nonneg (Real.sqrt_nonneg (flSqDist o x y))]; exact h2)
  · exact norm1_near hu0 hu ho hd x y
  · exact h1

theorem flExp_eq (K : ExpKind) (x y : Vec d) : flExp o pw ex K l s x y = flExpKernel o pw ex l s (flDistance o K x y) := by cases K <;> rfl

/-- The exponent as computed. -/
theorem exponent_near (hu0 : 0 ≤ u) (hu : u < 1) (ho : Rounding u o) (hpw : PowRounding u pw) (hd : 0 < d) (hl : 0 < l) (K : ExpKind) (x y : Vec d) :
    Near u (expRoundings K d) (ExpDistance K x y / (2 * l ^ 2)) (-o.div (-flDistance o K x y) (flScale o pw l)) := by
  have hsc := Pcimq.scale_near hu0 hu ho hpw hl
  have hp : 0 < 2 * l ^ 2 := by positivity
  have hz := distance_nonneg K x y
  have h1 := ho.div (-flDistance o K x y) (flScale o pw l) (Near.pos hu hp hsc).ne'
  have h2 := Near.round_after hu0 hu (div_nonneg hz hp.le) (Near.div hu hz hp (distance_near hu0 hu ho hd K x y) hsc)
    (c := -o.div (-flDistance o K x y) (flScale o pw l)) (by
      rw [neg_div, abs_neg] at h1
      rwa [show -o.div (-flDistance o K x y) (flScale o pw l) - flDistance o K x y / flScale o pw l
        = -(o.div (-flDistance o K x y) (flScale o pw l) - -(flDistance o K x y / flScale o pw l)) by ring, abs_neg])
  have : expRoundings K d = expRoundings K d - 3 + 2 + 1 := by cases K <;> simp [expRoundings]
  rw [this]
  exact h2

end RExp

open RExp

variable {u : ℝ} {o : FloatOps ℝ} {pw : ℕ → ℝ → ℝ} {ex : ℝ → ℝ} {l s : ℝ} {d c : ℕ}

/-- C116, the value: the error relative to the output scale depends on the dimension only, not on the points or the scales. -/
theorem C116_kernel (hu0 : 0 ≤ u) (hu : u < 1) (ho : Rounding u o) (hpw : PowRounding u pw) (hex : ExpRounding u c ex) (hd : 0 < d) (hl : 0 < l) (hs : 0 < s)
    (K : ExpKind) (x y : Vec d) : Within u (expRoundings K d + c + 1) s (K.compute l s x y) (flExp o pw ex K l s x y) := by
  have hz : 0 ≤ ExpDistance K x y / (2 * l ^ 2) := div_nonneg (distance_nonneg K x y) (by positivity)
  have hn := exponent_near hu0 hu ho hpw hd hl K x y
  have hz' := Near.nonneg hu hz hn
  have h1 := exp_within hu0 hu hz hn
  rw [neg_neg] at h1
  have h2 := Within.of_near hu0 hu (Real.exp_pos _).le (hex _ (by linarith : o.div (-flDistance o K x y) (flScale o pw l) ≤ 0))
  have h3 := Within.trans hu0 hu h1 h2 (by
    rw [mul_one]
    exact (Real.exp_le_one_iff.2 (by linarith)).trans (Within.one_le hu0 hu _))
  have h4 := Within.round_after hu0 hu (Within.mul hu0 hu (Within.refl u s) h3) (ho.mul _ _)
  rw [compute_eq, flExp_eq]
  rw [abs_of_pos hs, mul_one, Nat.zero_add] at h4
  exact h4

/-- C116, relative to the value: the error grows with the exponent, exponentially. -/
theorem C116_relative (hu0 : 0 ≤ u) (hu : u < 1) (ho : Rounding u o) (hpw : PowRounding u pw) (hex : ExpRounding u c ex) (hd : 0 < d) (hl : 0 < l) (hs : 0 < s)
    (K : ExpKind) (x y : Vec d) :
    let z := ExpDistance K x y / (2 * l ^ 2)
    let r := (1 - u) ^ expRoundings K d
    (1 - u) ^ (c + 1) * (K.compute l s x y * Real.exp (-((1 / r - 1) * z))) ≤ flExp o pw ex K l s x y ∧
      (1 - u) ^ (c + 1) * flExp o pw ex K l s x y ≤ K.compute l s x y * Real.exp ((1 - r) * z) := by
  intro z r
  have hz : 0 ≤ z := div_nonneg (distance_nonneg K x y) (by positivity)
  have hn : Near u _ z _ := exponent_near hu0 hu ho hpw hd hl K x y
  have hz' := Near.nonneg hu hz hn
  have hr : 0 < r := pow_pos (by linarith) _
  have h2 := hex _ (by linarith : o.div (-flDistance o K x y) (flScale o pw l) ≤ 0)
  have h3 := Near.round_after hu0 hu (mul_nonneg hs.le (Real.exp_pos _).le) (Near.mul hu hs.le (Real.exp_pos _).le (Near.refl u s) h2) (ho.mul _ _)
  rw [compute_eq, flExp_eq]
  rw [Nat.zero_add] at h3
  obtain ⟨h4, h5⟩ := h3
  obtain ⟨g1, g2⟩ := hn
  have hp : (0 : ℝ) ≤ (1 - u) ^ (c + 1) := pow_nonneg (by linarith) _
  constructor
  · refine le_trans (mul_le_mul_of_nonneg_left ?_ hp) h4
    rw [mul_assoc, ← Real.exp_add]
    refine mul_le_mul_of_nonneg_left (Real.exp_le_exp.2 ?_) hs.le
    have : -o.div (-flDistance o K x y) (flScale o pw l) ≤ z / r := by rw [le_div_iff₀ hr]; linarith
    have e : -z + -((1 / r - 1) * z) = -(z / r) := by ring
    change _ ≤ _
    rw [show -(ExpDistance K x y / (2 * l ^ 2)) = -z from rfl, e]
    linarith
  · refine h5.trans ?_
    rw [mul_assoc, ← Real.exp_add]
    refine mul_le_mul_of_nonneg_left (Real.exp_le_exp.2 ?_) hs.le
    change _ ≤ -z + _
    have : r * z ≤ -o.div (-flDistance o K x y) (flScale o pw l) := g1
    linarith

/-- C116, no relative bound: an arithmetic that meets the contract, in which no number of roundings bounds the error of the squared exponential kernel relative to its value. -/
theorem C116_no_relative (hu0 : 0 < u) (hu : u < 1) :
    ∃ (o : FloatOps ℝ) (pw : ℕ → ℝ → ℝ), Rounding u o ∧ PowRounding u pw ∧ ExpRounding u 0 Real.exp ∧
      ∀ q, ∃ x y : Vec 1, ¬ Near u q (ExpKind.squaredExponential.compute 1 1 x y) (flExp o pw Real.exp .squaredExponential 1 1 x y) := by
  have hrd : ∀ a, |(1 - u) * a - a| ≤ u * |a| := by
    intro a
    rw [show (1 - u) * a - a = -(u * a) by ring, abs_neg, abs_mul, abs_of_pos hu0]
  refine ⟨roundedOps (fun a => (1 - u) * a), fun n a => a ^ n, roundedOps_rounding hrd,
    fun n _ a ha => Near.mono hu0.le hu (pow_nonneg ha _) (Near.refl u _) (Nat.zero_le _), fun a _ => Near.refl u _, fun q => ?_⟩
  have h1 : 0 < 1 - u := by linarith
  have h3 : (1 - u) ^ 3 < 1 := pow_lt_one₀ h1.le (by linarith) (by norm_num)
  set c := 1 - (1 - u) ^ 3 with hc
  have hc0 : 0 < c := by linarith
  set T := 1 / (1 - u) ^ (q + 1) with hT
  have hT0 : 0 < T := by positivity
  refine ⟨fun _ => Real.sqrt (2 * T / c), fun _ => 0, fun hn => ?_⟩
  have hn2 := hn.2
  have hD : Real.sqrt (2 * T / c) ^ 2 = 2 * T / c := Real.sq_sqrt (by positivity)
  have e1 : ExpKind.squaredExponential.compute 1 1 (fun _ : Fin 1 => Real.sqrt (2 * T / c)) (fun _ => 0) = Real.exp (-(T / c)) := by
    rw [compute_eq]
    simp only [ExpDistance, Fin.sum_univ_one, sub_zero, hD, one_mul]
    congr 1
    field_simp
    try norm_num
  have e2 : flExp (roundedOps (fun a => (1 - u) * a)) (fun n a => a ^ n) Real.exp .squaredExponential 1 1 (fun _ : Fin 1 => Real.sqrt (2 * T / c)) (fun _ => 0)
      = (1 - u) * Real.exp (-((1 - u) ^ 3 * (T / c))) := by
    simp only [flExp, flExpKernel, flSqDist, flScale, roundedOps, List.ofFn_succ, List.ofFn_zero, List.tail_cons, List.foldl_nil, List.headD_cons, sub_zero, one_mul, one_pow, mul_one]
    congr 2
    have : (1 - u) * Real.sqrt (2 * T / c) * ((1 - u) * Real.sqrt (2 * T / c)) = (1 - u) ^ 2 * (2 * T / c) := by linear_combination (1 - u) ^ 2 * hD
    rw [this]
    field_simp
  rw [e1, e2] at hn2
  have e3 : Real.exp (-((1 - u) ^ 3 * (T / c))) = Real.exp (-(T / c)) * Real.exp T := by
    rw [← Real.exp_add]
    congr 1
    rw [show (1 - u) ^ 3 = 1 - c by rw [hc]; ring]
    field_simp
    ring
  rw [e3] at hn2
  have h5 := Real.add_one_le_exp T
  have h6 := Real.exp_pos (-(T / c))
  have h7 : (1 - u) ^ (q + 1) * T = 1 := by rw [hT]; field_simp
  have h8 : (1 - u) ^ q * ((1 - u) * (Real.exp (-(T / c)) * Real.exp T)) = (1 - u) ^ (q + 1) * Real.exp T * Real.exp (-(T / c)) := by ring
  have h9 : 0 < (1 - u) ^ (q + 1) := pow_pos h1 _
  have h10 : 1 < (1 - u) ^ (q + 1) * Real.exp T := by nlinarith
  nlinarith

/-- C116, the MMD: with any of the three kernels, any points and length scale, the MMD that the code computes is off by the root of the error of one mean of size `4 s`. -/
theorem C116_mmd (hu0 : 0 ≤ u) (hu : u < 1) (ho : Rounding u o) (hpw : PowRounding u pw) (hex : ExpRounding u c ex) (hd : 0 < d) (hl : 0 < l) (hs : 0 < s)
    (K : ExpKind) (big : ℝ) {n m : ℕ} (x : Data n (Vec d) ℝ) (y : Data m (Vec d) ℝ)
    (hx0 : ∀ i, 0 ≤ x.weights i) (hx : 0 < ∑ i, x.weights i) (hy0 : ∀ i, 0 ≤ y.weights i) (hy : 0 < ∑ i, y.weights i)
    (bs bs' : PyTree (Option ℤ)) (a b : Option ℤ) (hab : treeLeavesRepeat bs 2 = [a, b]) (hbs' : ValidBlock bs') :
    ∃ r e, flMMD o (flExp o pw ex K l s) x y bs = .ok r ∧ mmdCompute big (K.compute l s) x y bs' = .ok e ∧
      |r - e| ≤ u * e + (1 + u) * Real.sqrt ((1 / (1 - u) ^ (mmdRoundings (expRoundings K d + c + 1) n m a b + 2) - 1) * (4 * s)) := by
  obtain ⟨r, e, h1, h2, h3⟩ := C114_mmd hu0 hu ho big (fun _ _ => s) (K.compute l s) (flExp o pw ex K l s) (expRoundings K d + c + 1)
    (fun p q => C116_kernel hu0 hu ho hpw hex hd hl hs K p q) x y hx0 hx hy0 hy bs bs' a b hab hbs'
  refine ⟨r, e, h1, h2, ?_⟩
  simp only [KernelSums.avg_const hx.ne', KernelSums.avg_const hy.ne'] at h3
  rwa [show s + s + 2 * s = 4 * s by ring] at h3

/-! ### Concrete cases -/

theorem binaryExp_rounding : ExpRounding ((1 / 2) ^ 24) 1 fun a => binaryRound 23 (Real.exp a) :=
  fun a _ => Near.round (by norm_num) (by norm_num) (Real.exp_pos a).le (binaryRound_error 23 _)

example := C116_kernel (u := (1 / 2) ^ 24) (by norm_num) (by norm_num) (roundedOps_rounding fun a => binaryRound_error 23 a)
    (roundedPow_rounding (by norm_num) (by norm_num) fun a => binaryRound_error 23 a) binaryExp_rounding (d := 3) (by norm_num) (l := 1 / 2) (s := 3)
    (by norm_num) (by norm_num) .laplacian ![0, 1, 2] ![1 / 3, -1, 7]

example := C116_relative (u := (1 / 2) ^ 24) (by norm_num) (by norm_num) (roundedOps_rounding fun a => binaryRound_error 23 a)
    (roundedPow_rounding (by norm_num) (by norm_num) fun a => binaryRound_error 23 a) binaryExp_rounding (d := 3) (by norm_num) (l := 1 / 2) (s := 3)
    (by norm_num) (by norm_num) .exponential ![0, 1, 2] ![1 / 3, -1, 7]

example := C116_no_relative (u := (1 / 2) ^ 24) (by norm_num) (by norm_num)

example := C116_mmd (u := (1 / 2) ^ 24) (by norm_num) (by norm_num) (roundedOps_rounding fun a => binaryRound_error 23 a)
    (roundedPow_rounding (by norm_num) (by norm_num) fun a => binaryRound_error 23 a) binaryExp_rounding (d := 2) (by norm_num) (l := 1 / 2) (s := 3)
    (by norm_num) (by norm_num) .squaredExponential 1000 (n := 2) (m := 1) ⟨![![0, 1], ![1 / 3, -1]], fun _ => 1⟩ ⟨![![5, 7]], fun _ => 2⟩
    (fun _ => zero_le_one) (by simp) (fun _ => by norm_num) (by simp) (.leaf (some 2)) (.leaf none) (some 2) (some 2) rfl (.inl rfl)

end Coreax
