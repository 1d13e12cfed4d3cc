import Verif.Model.RoundedKernel
import Verif.Props.RoundedHerdingSigned

/-!
# Rounding errors of kernels of any nesting

The number of roundings and the size against which the error is measured are read off the expression.
-/

namespace Coreax

open Spec

namespace Spec

/-- The size of a kernel value: sums and products of the sizes of the parts. `S` is that of the kernels left out. -/
noncomputable def kernelSize {d : ℕ} (S : KExpr d → Vec d → Vec d → ℝ) : KExpr d → Vec d → Vec d → ℝ
  | .const c, _, _ => c
  | .linear s c, x, y => s * (∑ i, |x i| * |y i|) + c
  | .polynomial s c n, x, y => s * ((∑ i, |x i| * |y i|) + c) ^ n.toInt.toNat
  | .exponential _ s, _, _ => s
  | .laplacian _ s, _, _ => s
  | .squaredExponential _ s, _, _ => s
  | .pcimq l s, x, y => s / Real.sqrt (1 + sqDist x y / (2 * l ^ 2))
  | .rationalQuadratic l s a, x, y => s * (1 + sqDist x y / (2 * a * l ^ 2)) ^ (-a)
  | .power k n, x, y => kernelSize S k x y ^ n.toInt.toNat
  | .add a b, x, y => kernelSize S a x y + kernelSize S b x y
  | .mul a b, x, y => kernelSize S a x y * kernelSize S b x y
  | .matern l s n, x, y => S (.matern l s n) x y
  | .periodic l s p, x, y => S (.periodic l s p) x y
  | .poisson r s, x, y => S (.poisson r s) x y
  | .stein k f, x, y => S (.stein k f) x y

/-- The number of roundings; `c` for `jnp.exp` and for a real power, `P` for the kernels left out. -/
noncomputable def kernelRoundings {d : ℕ} (c : ℕ) (P : KExpr d → ℕ) : KExpr d → ℕ
  | .const _ => 0
  | .linear _ _ => d + 2
  | .polynomial _ _ n => n.toInt.toNat * (d + 1) + (n.toInt.toNat - 1) + 1
  | .exponential _ _ => d + 6 + c + 1
  | .laplacian _ _ => d + 3 + c + 1
  | .squaredExponential _ _ => d + 5 + c + 1
  | .pcimq _ _ => d + 8
  | .rationalQuadratic _ _ a => ⌈a⌉₊ * (d + 7) + c + 1
  | .power k n => n.toInt.toNat * kernelRoundings c P k + (n.toInt.toNat - 1)
  | .add a b => max (kernelRoundings c P a) (kernelRoundings c P b) + 1
  | .mul a b => kernelRoundings c P a + kernelRoundings c P b + 1
  | .matern l s n => P (.matern l s n)
  | .periodic l s p => P (.periodic l s p)
  | .poisson r s => P (.poisson r s)
  | .stein k f => P (.stein k f)

/-- `· ** n` of a number of either sign. -/
def SignedPow (u : ℝ) (pw : ℕ → ℝ → ℝ) : Prop := ∀ n, 0 < n → ∀ a, Within u (n - 1) (|a| ^ n) (a ^ n) (pw n a)

/-- `· ** e` with a real exponent of a positive number is accurate to `c` roundings. -/
def RealPow (u : ℝ) (c : ℕ) (rp : ℝ → ℝ → ℝ) : Prop := ∀ b e, 0 < b → Near u c (b ^ e) (rp b e)

/-- No division by zero: the relative weighting of a rational quadratic kernel inside is not zero (the constructor accepts zero). -/
def WeightingNonzero {d : ℕ} : KExpr d → Prop
  | .rationalQuadratic _ _ a => a ≠ 0
  | .power k _ => WeightingNonzero k
  | .add a b => WeightingNonzero a ∧ WeightingNonzero b
  | .mul a b => WeightingNonzero a ∧ WeightingNonzero b
  | _ => True

end Spec

namespace RKernel

variable {u : ℝ} {o : FloatOps ℝ} {pw : ℕ → ℝ → ℝ} {rp : ℝ → ℝ → ℝ} {ex : ℝ → ℝ} {d c : ℕ}

theorem within_pow (hu0 : 0 ≤ u) (hu : u < 1) {p : ℕ} {A x x' : ℝ} (h : Within u p A x x') : ∀ n, Within u (n * p) (A ^ n) (x ^ n) (x' ^ n)
  | 0 => by simp [Within]
  | n + 1 => by
    rw [pow_succ, pow_succ, pow_succ, Nat.succ_mul]
    exact Within.mul hu0 hu (within_pow hu0 hu h n) h

theorem within_pw (hu0 : 0 ≤ u) (hu : u < 1) (hpw : SignedPow u pw) {p : ℕ} {A x x' : ℝ} (h : Within u p A x x') {n : ℕ} (hn : 0 < n) :
    Within u (n * p + (n - 1)) (A ^ n) (x ^ n) (pw n x') := by
  refine Within.trans hu0 hu (within_pow hu0 hu h n) (hpw n hn x') ?_
  have := pow_le_pow_left₀ (abs_nonneg _) h.abs_le n
  rwa [mul_pow, div_pow, one_pow, ← pow_mul, mul_comm p n] at this

theorem dot_within (hu0 : 0 ≤ u) (hu : u < 1) (ho : Rounding u o) (hd : 0 < d) (x y : Vec d) : Within u d (∑ i, |x i| * |y i|) (vdot x y) (o.dot x y) := by
  obtain ⟨D, rfl⟩ : ∃ D, d = D + 1 := ⟨d - 1, by omega⟩
  obtain ⟨prod, h1, h2⟩ := ho.dot x y
  have := Within.dot hu0 hu hd (fun i => Within.refl u (x i)) (fun i => Within.refl u (y i)) h1 h2
  rwa [show 0 + 0 + (D + 1) = D + 1 by omega] at this

theorem near_rpow (hu0 : 0 ≤ u) (hu : u < 1) {p : ℕ} {b b' a : ℝ} (hb : 0 < b) (ha : 0 ≤ a) (h : Near u p b b') : Near u (⌈a⌉₊ * p) (b ^ (-a)) (b' ^ (-a)) := by
  have hb' := Near.pos hu hb h
  have hr : 0 < (1 - u) ^ p := pow_pos (by linarith) _
  have hr1 : (1 - u) ^ p ≤ 1 := pow_le_one₀ (by linarith) (by linarith)
  have key : ∀ {v w : ℝ}, 0 < v → (1 - u) ^ p * v ≤ w → (1 - u) ^ (⌈a⌉₊ * p) * w ^ (-a) ≤ v ^ (-a) := by
    intro v w hv hvw
    have h1 : w ^ (-a) ≤ ((1 - u) ^ p * v) ^ (-a) := Real.rpow_le_rpow_of_nonpos (mul_pos hr hv) hvw (by linarith)
    have h2 : (1 - u) ^ (⌈a⌉₊ * p) ≤ ((1 - u) ^ p) ^ a := by
      rw [mul_comm, pow_mul, ← Real.rpow_natCast ((1 - u) ^ p) ⌈a⌉₊]
      exact Real.rpow_le_rpow_of_exponent_ge hr hr1 (Nat.le_ceil a)
    calc (1 - u) ^ (⌈a⌉₊ * p) * w ^ (-a) ≤ ((1 - u) ^ p) ^ a * ((1 - u) ^ p * v) ^ (-a) :=
          mul_le_mul h2 h1 (Real.rpow_nonneg ((mul_pos hr hv).le.trans hvw) _) (Real.rpow_nonneg hr.le _)
      _ = v ^ (-a) := by
          rw [Real.mul_rpow hr.le hv.le, ← mul_assoc, ← Real.rpow_add hr, add_neg_cancel, Real.rpow_zero, one_mul]
  exact ⟨key hb' h.2, key hb h.1⟩

theorem rationalQuadratic_near (hu0 : 0 ≤ u) (hu : u < 1) (ho : Rounding u o) (hpw : PowRounding u pw) (hrp : RealPow u c rp) (hd : 0 < d) {l s a : ℝ} (hl : 0 < l) (hs : 0 < s)
    (ha : 0 < a) (x y : Vec d) : Near u (⌈a⌉₊ * (d + 7) + c + 1) ((rationalQuadraticSem l s a).compute x y) (flRationalQuadratic o pw rp l s a x y) := by
  have h1 := Near.round_after hu0 hu (by positivity : 0 ≤ 2 * a) (Near.refl u (2 * a)) (ho.mul 2 a)
  have h2 := Near.round_after hu0 hu (by positivity) (Near.mul hu (by positivity) (by positivity) h1 (hpw 2 (by norm_num) l hl.le)) (ho.mul _ _)
  rw [← ho.two] at h2
  have hsc : 0 < 2 * a * l ^ 2 := by positivity
  rw [ho.two] at h2
  have hD := Pcimq.sqDist_nonneg x y
  have hq0 : 0 ≤ sqDist x y / (2 * a * l ^ 2) := div_nonneg hD hsc.le
  have h3 := Near.round_after hu0 hu hq0 (Near.div hu hD hsc (Pcimq.sqDist_near hu0 hu ho hd x y) h2) (ho.div _ _ (Near.pos hu hsc h2).ne')
  have h4 := Near.round_after hu0 hu (by linarith) (Near.add (Near.mono hu0 hu zero_le_one (Near.refl u 1) (Nat.zero_le _)) h3) (ho.add _ _)
  have hb : 0 < 1 + sqDist x y / (2 * a * l ^ 2) := by linarith
  have h5 := near_rpow hu0 hu hb ha.le h4
  have h6 := Near.trans hu h5 (hrp _ (-a) (Near.pos hu hb h4))
  have h7 := Near.round_after hu0 hu (by positivity) (Near.mul hu hs.le (Real.rpow_nonneg hb.le _) (Near.refl u s) h6) (ho.mul _ _)
  simp only [flRationalQuadratic, rationalQuadraticSem, ho.two]
  refine Near.mono hu0 hu (by positivity) h7 ?_
  have : d + 2 + (0 + 1 + (2 - 1) + 1) + 1 + 1 = d + 7 := by omega
  rw [this]
  omega

end RKernel

open RKernel

variable {u : ℝ} {o : FloatOps ℝ} {pw : ℕ → ℝ → ℝ} {rp : ℝ → ℝ → ℝ} {ex : ℝ → ℝ} {d c : ℕ}

/-- C119: the error of a kernel value, for every kernel object that the library lets one construct, of any nesting. -/
theorem C119_kernel (hu0 : 0 ≤ u) (hu : u < 1) (ho : Rounding u o) (hpw : PowRounding u pw) (hpw' : SignedPow u pw) (hrp : RealPow u c rp) (hex : ExpRounding u c ex) (hd : 0 < d)
    (leaf S : KExpr d → Vec d → Vec d → ℝ) (P : KExpr d → ℕ)
    (hleaf : ∀ k, k.External → k.check = .ok () → ∀ x y, Within u (P k) (S k x y) (k.sem.compute x y) (leaf k x y))
    (K : KExpr d) (hc : K.check = .ok ()) (hK : WeightingNonzero K) (x y : Vec d) :
    Within u (kernelRoundings c P K) (kernelSize S K x y) (K.sem.compute x y) (flKernel o pw rp ex leaf K x y) := by
  induction K with
  | const c =>
    have := Within.refl u c
    rwa [abs_of_nonneg (checkNonneg_ok hc)] at this
  | linear s c =>
    have hs := checkPos_ok (bind_ok hc).1
    have h1 := Within.round_after hu0 hu (Within.mul hu0 hu (Within.refl u s) (dot_within hu0 hu ho hd x y)) (ho.mul _ _)
    have h2 := Within.round_after hu0 hu (Within.add h1 (Within.mono hu0 hu (Within.refl u c) (Nat.zero_le _))) (ho.add _ _)
    rw [abs_of_pos hs, abs_of_nonneg (checkNonneg_ok (bind_ok hc).2), Nat.zero_add] at h2
    exact h2
  | polynomial s c n =>
    have hs := checkPos_ok (bind_ok hc).1
    have hc0 := checkNonneg_ok (bind_ok (bind_ok hc).2).1
    have hn := checkIntGe_ok (bind_ok (bind_ok hc).2).2
    have h1 := Within.round_after hu0 hu (Within.add (dot_within hu0 hu ho hd x y) (Within.mono hu0 hu (Within.refl u c) (Nat.zero_le _))) (ho.add _ _)
    have h2 := within_pw hu0 hu hpw' h1 (n := n.toInt.toNat) (by omega)
    have h3 := Within.round_after hu0 hu (Within.mul hu0 hu (Within.refl u s) h2) (ho.mul _ _)
    rw [abs_of_pos hs, abs_of_nonneg hc0, Nat.zero_add] at h3
    have e : (KExpr.polynomial s c n : KExpr d).sem.compute x y = s * (vdot x y + c) ^ n.toInt.toNat := by
      change s * (vdot x y + c) ^ n.toInt = _
      rw [← zpow_natCast, Int.toNat_of_nonneg (by omega)]
    rw [e]
    exact h3
  | exponential l s => exact C116_kernel hu0 hu ho hpw hex hd (checkPos_ok (bind_ok hc).1) (checkPos_ok (bind_ok hc).2) .exponential x y
  | laplacian l s => exact C116_kernel hu0 hu ho hpw hex hd (checkPos_ok (bind_ok hc).1) (checkPos_ok (bind_ok hc).2) .laplacian x y
  | squaredExponential l s => exact C116_kernel hu0 hu ho hpw hex hd (checkPos_ok (bind_ok hc).1) (checkPos_ok (bind_ok hc).2) .squaredExponential x y
  | pcimq l s =>
    have hl := checkPos_ok (bind_ok hc).1
    have hs := checkPos_ok (bind_ok hc).2
    exact Within.of_near hu0 hu (Pcimq.compute_pos hl hs x y).le (Pcimq.near hu0 hu ho hpw hd hl hs x y)
  | rationalQuadratic l s a =>
    have hl := checkPos_ok (bind_ok hc).1
    have hs := checkPos_ok (bind_ok (bind_ok hc).2).1
    have ha := lt_of_le_of_ne (checkNonneg_ok (bind_ok (bind_ok hc).2).2) (Ne.symm hK)
    refine Within.of_near hu0 hu ?_ (rationalQuadratic_near hu0 hu ho hpw hrp hd hl hs ha x y)
    have := div_nonneg (Pcimq.sqDist_nonneg x y) (by positivity : 0 ≤ 2 * a * l ^ 2)
    exact mul_nonneg hs.le (Real.rpow_nonneg (by linarith) _)
  | matern l s n => exact hleaf (.matern l s n) trivial hc x y
  | periodic l s p => exact hleaf (.periodic l s p) trivial hc x y
  | poisson r s => exact hleaf (.poisson r s) trivial hc x y
  | stein k f _ => exact hleaf (.stein k f) trivial hc x y
  | power k n ih =>
    have hn := checkIntGe_ok (bind_ok hc).2
    have h2 := within_pw hu0 hu hpw' (ih (bind_ok hc).1 hK) (n := n.toInt.toNat) (by omega)
    have e : (KExpr.power k n : KExpr d).sem.compute x y = k.sem.compute x y ^ n.toInt.toNat := by
      change k.sem.compute x y ^ n.toInt = _
      rw [← zpow_natCast, Int.toNat_of_nonneg (by omega)]
    rw [e]
    exact h2
  | add a b iha ihb =>
    exact Within.round_after hu0 hu (Within.add (Within.mono hu0 hu (iha (bind_ok hc).1 hK.1) (le_max_left _ _)) (Within.mono hu0 hu (ihb (bind_ok hc).2 hK.2) (le_max_right _ _)))
      (ho.add _ _)
  | mul a b iha ihb =>
    have ha := iha (bind_ok hc).1 hK.1
    have hb := ihb (bind_ok hc).2 hK.2
    by_cases hab : a = b
    · subst hab
      have h := within_pw hu0 hu hpw' ha (n := 2) (by norm_num)
      simp only [flKernel, KExpr.sem, mulSem, kernelSize, kernelRoundings, decide_true, if_true]
      rw [← sq]
      exact Within.mono hu0 hu h (by omega)
    · have h := Within.round_after hu0 hu (Within.mul hu0 hu ha hb) (ho.mul _ _)
      simp only [flKernel, KExpr.sem, mulSem, kernelSize, kernelRoundings, hab, decide_false, if_false, Bool.false_eq_true]
      exact h

/-- C119, the MMD with a kernel of any nesting. -/
theorem C119_mmd (hu0 : 0 ≤ u) (hu : u < 1) (ho : Rounding u o) (hpw : PowRounding u pw) (hpw' : SignedPow u pw) (hrp : RealPow u c rp) (hex : ExpRounding u c ex) (hd : 0 < d)
    (leaf S : KExpr d → Vec d → Vec d → ℝ) (P : KExpr d → ℕ)
    (hleaf : ∀ k, k.External → k.check = .ok () → ∀ x y, Within u (P k) (S k x y) (k.sem.compute x y) (leaf k x y))
    (K : KExpr d) (hc : K.check = .ok ()) (hK : WeightingNonzero K) (big : ℝ) {n m : ℕ} (x : Data n (Vec d) ℝ) (y : Data m (Vec d) ℝ)
    (hx0 : ∀ i, 0 ≤ x.weights i) (hx : 0 < ∑ i, x.weights i) (hy0 : ∀ i, 0 ≤ y.weights i) (hy : 0 < ∑ i, y.weights i)
    (bs bs' : PyTree (Option ℤ)) (a b : Option ℤ) (hab : treeLeavesRepeat bs 2 = [a, b]) (hbs' : ValidBlock bs') :
    ∃ r e, flMMD o (flKernel o pw rp ex leaf K) x y bs = .ok r ∧ mmdCompute big K.sem.compute x y bs' = .ok e ∧
      |r - e| ≤ u * e + (1 + u) * Real.sqrt ((1 / (1 - u) ^ (mmdRoundings (kernelRoundings c P K) n m a b + 2) - 1)
        * ((avg x.weights fun i => avg x.weights fun j => kernelSize S K (x.data i) (x.data j)) + (avg y.weights fun i => avg y.weights fun j => kernelSize S K (y.data i) (y.data j))
          + 2 * avg x.weights fun i => avg y.weights fun j => kernelSize S K (x.data i) (y.data j))) :=
  C114_mmd hu0 hu ho big (kernelSize S K) K.sem.compute (flKernel o pw rp ex leaf K) (kernelRoundings c P K)
    (C119_kernel hu0 hu ho hpw hpw' hrp hex hd leaf S P hleaf K hc hK) x y hx0 hx hy0 hy bs bs' a b hab hbs'

section
variable {n : ℕ} [NeZero n]

/-- C119, herding (the default, distinct points on equally weighted rows) with a kernel of any nesting evaluated in the same arithmetic. -/
theorem C119_herding (hu0 : 0 ≤ u) (hu : u < 1) (ho : Rounding u o) (hpw : PowRounding u pw) (hpw' : SignedPow u pw) (hrp : RealPow u c rp) (hex : ExpRounding u c ex) (hd : 0 < d)
    (leaf S : KExpr d → Vec d → Vec d → ℝ) (P : KExpr d → ℕ)
    (hleaf : ∀ k, k.External → k.check = .ok () → ∀ x y, Within u (P k) (S k x y) (k.sem.compute x y) (leaf k x y))
    (K : KExpr d) (hc : K.check = .ok ()) (hK : WeightingNonzero K) (hdom : K.PsdDomain) (pre : Data n (Vec d) ℝ) (huw : UniformWeights pre.weights)
    (R : ℝ) (hR : ∀ i j, kernelSize S K (pre.data i) (pre.data j) ≤ R) (size : ℕ) (hsize : 0 < size) (hpos : PosCount pre.weights size)
    (bs : PyTree (Option ℤ)) (bx bY : Option ℤ) (hbs : treeLeavesRepeat bs 2 = [bx, bY]) (ord : List (Fin size)) :
    ∃ (f : Fin size → Fin n) (rm : List ℝ), flHerdingReduce o (flKernel o pw rp ex leaf K) true bs size pre ord = .ok (⟨fun t => (f t : ℤ), fun _ => 1⟩, rm) ∧
      Function.Injective f ∧
      mmdSq K.sem.compute pre.data pre.weights (fun t => pre.data (f t)) (fun _ => 1)
        ≤ (R - (avg pre.weights fun i => avg pre.weights fun j => K.sem.compute (pre.data i) (pre.data j)) / 2) / size
          + 2 * signedResidualError u R (max (rowMeanRoundings (kernelRoundings c P K) n bx) (kernelRoundings c P K + size)) * (size + 1) / size :=
  C117_rate_unique hu0 hu ho (kernelSize S K) K.sem.compute (flKernel o pw rp ex leaf K) (C08_psd K hc hdom).1 (kernelRoundings c P K)
    (C119_kernel hu0 hu ho hpw hpw' hrp hex hd leaf S P hleaf K hc hK) pre ((C08_psd K hc hdom).2 n pre.data) huw size hsize hpos R hR bs bx bY hbs ord

end

/-! ### Cases -/

theorem roundedPow_signed {u : ℝ} (hu0 : 0 ≤ u) (hu : u < 1) {rd : ℝ → ℝ} (h : ∀ a, |rd a - a| ≤ u * |a|) : SignedPow u (roundedPow rd) := by
  intro n hn a
  obtain ⟨n, rfl⟩ : ∃ m, n = m + 1 := ⟨n - 1, by omega⟩
  clear hn
  induction n with
  | zero => simpa [roundedPow] using Within.refl u a
  | succ n ih =>
    have := Within.round_after hu0 hu (Within.mul hu0 hu ih (Within.refl u a)) (h _)
    rw [← pow_succ, ← pow_succ] at this
    exact this

theorem binaryRealPow : RealPow ((1 / 2) ^ 24) 1 fun b e => binaryRound 23 (b ^ e) :=
  fun b e hb => Near.round (by norm_num) (by norm_num) (Real.rpow_nonneg hb.le e) (binaryRound_error 23 _)

/-- The kernels left out, exact up to one rounding. -/
theorem binaryLeaf (k : KExpr d) (_ : k.External) (_ : k.check = .ok ()) (x y : Vec d) :
    Within ((1 / 2) ^ 24) 1 |k.sem.compute x y| (k.sem.compute x y) (binaryRound 23 (k.sem.compute x y)) :=
  Within.round_after (by norm_num) (by norm_num) (Within.refl _ _) (binaryRound_error 23 _)

/-- `(linear * (rational quadratic + squared exponential) ** 2 + Matern)` in two dimensions, single precision. -/
noncomputable def roundedCase : KExpr 2 := .add (.mul (.linear 1 1) (.power (.add (.rationalQuadratic 1 2 (5 / 2)) (.squaredExponential 1 1)) (.int 2))) (.matern 1 1 (.int 1))

theorem roundedCase_check : roundedCase.check = .ok () := by
  norm_num [roundedCase, KExpr.check, checkPos, checkNonneg, checkIntGe, bind, Except.bind]

theorem roundedCase_nonzero : WeightingNonzero roundedCase := by norm_num [roundedCase, WeightingNonzero]

theorem roundedCase_psd : roundedCase.PsdDomain := by norm_num [roundedCase, KExpr.PsdDomain]

example := C119_kernel (u := (1 / 2) ^ 24) (by norm_num) (by norm_num) (roundedOps_rounding fun a => binaryRound_error 23 a)
    (roundedPow_rounding (by norm_num) (by norm_num) fun a => binaryRound_error 23 a) (roundedPow_signed (by norm_num) (by norm_num) fun a => binaryRound_error 23 a)
    binaryRealPow binaryExp_rounding (d := 2) (by norm_num) _ _ _ binaryLeaf roundedCase roundedCase_check roundedCase_nonzero ![0, 1] ![1 / 3, -1]

/-- The number of roundings of that case. -/
example : kernelRoundings 1 (fun _ => 1) roundedCase = 67 := by
  have : ⌈(5 / 2 : ℝ)⌉₊ = 3 := by rw [Nat.ceil_eq_iff (by norm_num)]; norm_num
  simp [roundedCase, kernelRoundings, this, PyNum.toInt]

example := C119_mmd (u := (1 / 2) ^ 24) (by norm_num) (by norm_num) (roundedOps_rounding fun a => binaryRound_error 23 a)
    (roundedPow_rounding (by norm_num) (by norm_num) fun a => binaryRound_error 23 a) (roundedPow_signed (by norm_num) (by norm_num) fun a => binaryRound_error 23 a)
    binaryRealPow binaryExp_rounding (d := 2) (by norm_num) _ _ _ binaryLeaf roundedCase roundedCase_check roundedCase_nonzero 1000
    (n := 2) (m := 1) ⟨![![0, 1], ![1 / 3, -1]], fun _ => 1⟩ ⟨![![5, 7]], fun _ => 2⟩
    (fun _ => zero_le_one) (by simp) (fun _ => by norm_num) (by simp) (.leaf (some 2)) (.leaf none) (some 2) (some 2) rfl (.inl rfl)

example := C119_herding (u := (1 / 2) ^ 24) (by norm_num) (by norm_num) (roundedOps_rounding fun a => binaryRound_error 23 a)
    (roundedPow_rounding (by norm_num) (by norm_num) fun a => binaryRound_error 23 a) (roundedPow_signed (by norm_num) (by norm_num) fun a => binaryRound_error 23 a)
    binaryRealPow binaryExp_rounding (d := 2) (by norm_num) _ _ _ binaryLeaf (.add (.polynomial 1 1 (.int 3)) (.laplacian 2 3))
    (by norm_num [KExpr.check, checkPos, checkNonneg, checkIntGe, bind, Except.bind]) (by simp [WeightingNonzero]) (by simp [KExpr.PsdDomain])
    (n := 3) ⟨![![0, 1], ![1 / 3, -1], ![1, 1]], ![1, 1, 1]⟩
    ⟨1, by norm_num, by intro i; fin_cases i <;> simp⟩ 30
    (by intro i j; fin_cases i <;> fin_cases j <;> norm_num [kernelSize, PyNum.toInt, Fin.sum_univ_two, show Int.toNat 3 = 3 from rfl])
    2 (by norm_num) (by simp [PosCount, Finset.filter_true_of_mem, Fin.forall_fin_succ]) (.leaf (some 2)) (some 2) (some 2) rfl (List.finRange 2)

end Coreax
