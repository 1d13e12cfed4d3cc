import Verif.Model.RoundedPcimq
import Verif.Props.RoundedKSD

/-!
# Rounding errors of the PCIMQ kernel, of its Stein kernel, and of the KSD with them

All numbers of roundings depend on the dimension only: not on the points, the length scale or the output scale.
-/

namespace Coreax

open Spec

namespace Spec

/-- The sizes of the two terms of the divergence together. -/
noncomputable def pcimqDivSize (l s : ℝ) {d : ℕ} (x y : Vec d) : ℝ :=
  let k := 1 / Real.sqrt (1 + sqDist x y / (2 * l ^ 2))
  s / (2 * l ^ 2) * (d * k ^ 3 + 3 * k ^ 5 * sqDist x y / (2 * l ^ 2))

/-- The sizes of the four terms of the Stein kernel together; `S` bounds the sizes of the entries of the score function. -/
noncomputable def steinSize (l s : ℝ) {d : ℕ} (S : Vec d → Vec d) (x y : Vec d) : ℝ :=
  pcimqDivSize l s x y + ∑ i, |(pcimqSem l s).gradY x y i| * S y i + ∑ i, |(pcimqSem l s).gradY x y i| * S x i
    + ∑ i, (pcimqSem l s).compute x y * S x i * S y i

/-- `· ** n` of a number that is not negative makes at most `n - 1` roundings, as repeated multiplication in any order does. -/
def PowRounding (u : ℝ) (pw : ℕ → ℝ → ℝ) : Prop := ∀ n, 0 < n → ∀ a, 0 ≤ a → Near u (n - 1) (a ^ n) (pw n a)

end Spec

namespace Pcimq

variable {u : ℝ} {o : FloatOps ℝ} {num : ℕ → ℝ} {pw : ℕ → ℝ → ℝ} {l s : ℝ} {d : ℕ}

theorem near_pow (hu : u < 1) {a a' : ℝ} {p : ℕ} (ha : 0 ≤ a) (h : Near u p a a') : ∀ n, Near u (n * p) (a ^ n) (a' ^ n)
  | 0 => by simpa using Near.refl u 1
  | n + 1 => by
    rw [pow_succ, pow_succ, Nat.succ_mul]
    exact Near.mul hu (pow_nonneg ha _) ha (near_pow hu ha h n) h

theorem near_pw (hu : u < 1) (hpw : PowRounding u pw) {a a' : ℝ} {p : ℕ} (ha : 0 ≤ a) (h : Near u p a a') (n : ℕ) (hn : 0 < n) :
    Near u (n * p + (n - 1)) (a ^ n) (pw n a') :=
  Near.trans hu (near_pow hu ha h n) (hpw n hn a' (Near.nonneg hu ha h))

theorem near_sqrt (hu0 : 0 ≤ u) (hu : u < 1) {a a' : ℝ} {p : ℕ} (h : Near u p a a') : Near u p (Real.sqrt a) (Real.sqrt a') := by
  have h0 : 0 ≤ (1 - u) ^ p := pow_nonneg (by linarith) _
  have h1 : (1 - u) ^ p ≤ 1 := pow_le_one₀ (by linarith) (by linarith)
  have key : ∀ b, (1 - u) ^ p * Real.sqrt b ≤ Real.sqrt ((1 - u) ^ p * b) := by
    intro b
    rw [Real.sqrt_mul h0]
    refine mul_le_mul_of_nonneg_right ?_ (Real.sqrt_nonneg _)
    exact Real.le_sqrt_of_sq_le (by nlinarith)
  exact ⟨(key a).trans (Real.sqrt_le_sqrt h.1), (key a').trans (Real.sqrt_le_sqrt h.2)⟩

theorem diff_abs (hu0 : 0 ≤ u) (hu : u < 1) (ho : Rounding u o) (a b : ℝ) : Near u 1 |a - b| |o.sub a b| := by
  refine Near.round hu0 hu (abs_nonneg _) ?_
  rw [abs_abs]
  exact (abs_abs_sub_abs_le_abs_sub _ _).trans (ho.sub a b)

theorem sqDist_near (hu0 : 0 ≤ u) (hu : u < 1) (ho : Rounding u o) (hd : 0 < d) (x y : Vec d) : Near u (d + 2) (sqDist x y) (flSqDist o x y) := by
  obtain ⟨D, rfl⟩ : ∃ D, d = D + 1 := ⟨d - 1, by omega⟩
  obtain ⟨prod, h1, h2⟩ := ho.dot (fun i => o.sub (x i) (y i)) (fun i => o.sub (x i) (y i))
  have := near_dot hu0 hu (p := 1) (q := 1) hd (f := fun i => |x i - y i|) (g := fun i => |x i - y i|) (f' := fun i => |o.sub (x i) (y i)|)
    (g' := fun i => |o.sub (x i) (y i)|) (fun i => abs_nonneg _) (fun i => abs_nonneg _) (fun i => diff_abs hu0 hu ho _ _) (fun i => diff_abs hu0 hu ho _ _)
    (fun i => by rw [abs_mul_abs_self]; exact h1 i) h2
  simp only [abs_mul_abs_self] at this
  rwa [show 1 + 1 + (D + 1) = D + 1 + 2 by ring] at this

theorem sqDist_nonneg (x y : Vec d) : 0 ≤ sqDist x y := Finset.sum_nonneg fun i _ => mul_self_nonneg _

theorem scale_near (hu0 : 0 ≤ u) (hu : u < 1) (ho : Rounding u o) (hpw : PowRounding u pw) (hl : 0 < l) : Near u 2 (2 * l ^ 2) (flScale o pw l) := by
  have h1 := hpw 2 (by norm_num) l hl.le
  have h2 := Near.round_after hu0 hu (by positivity) (Near.mul hu (by norm_num : (0 : ℝ) ≤ 2) (by positivity) (Near.refl u 2) h1) (ho.mul _ _)
  rw [flScale, ho.two]
  exact h2

theorem root_pos (x y : Vec d) (hl : 0 < l) : 0 < Real.sqrt (1 + sqDist x y / (2 * l ^ 2)) :=
  Real.sqrt_pos.2 (by have := div_nonneg (sqDist_nonneg x y) (by positivity : 0 ≤ 2 * l ^ 2); linarith)

theorem near (hu0 : 0 ≤ u) (hu : u < 1) (ho : Rounding u o) (hpw : PowRounding u pw) (hd : 0 < d) (hl : 0 < l) (hs : 0 < s) (x y : Vec d) :
    Near u (d + 8) ((pcimqSem l s).compute x y) (flPcimq o pw l s x y) := by
  have hsc := scale_near hu0 hu ho hpw hl
  have hscp : 0 < 2 * l ^ 2 := by positivity
  have hD := sqDist_nonneg x y
  have hq0 : 0 ≤ sqDist x y / (2 * l ^ 2) := div_nonneg hD hscp.le
  have h1 := Near.round_after hu0 hu hq0 (Near.div hu hD hscp (sqDist_near hu0 hu ho hd x y) hsc) (ho.div _ _ (Near.pos hu hscp hsc).ne')
  have h2 := Near.round_after hu0 hu (by linarith) (Near.add (Near.mono hu0 hu zero_le_one (Near.refl u 1) (Nat.zero_le (d + 2 + 2 + 1))) h1) (ho.add _ _)
  have h3 := near_sqrt hu0 hu h2
  have hpos : 0 < 1 + sqDist x y / (2 * l ^ 2) := by linarith
  have h4 := ho.root (o.add 1 (o.div (flSqDist o x y) (flScale o pw l)))
  rw [max_eq_right (Near.nonneg hu hpos.le h2)] at h4
  have h5 := Near.round_after hu0 hu (Real.sqrt_nonneg _) h3 (c := o.root (o.add 1 (o.div (flSqDist o x y) (flScale o pw l))))
    (by rw [abs_of_nonneg (Real.sqrt_nonneg (o.add 1 _))]; exact h4)
  have hr := root_pos x y hl
  have h6 := Near.round_after hu0 hu (div_nonneg hs.le hr.le) (Near.div hu hs.le hr (Near.refl u s) h5) (ho.div _ _ (Near.pos hu hr h5).ne')
  rw [show d + 8 = 0 + (d + 2 + 2 + 1 + 1 + 1) + 1 by ring]
  exact h6

theorem ratio_eq (hs : 0 < s) (x y : Vec d) : (pcimqSem l s).compute x y / s = 1 / Real.sqrt (1 + sqDist x y / (2 * l ^ 2)) := by
  simp only [pcimqSem]
  field_simp

theorem compute_pos (hl : 0 < l) (hs : 0 < s) (x y : Vec d) : 0 < (pcimqSem l s).compute x y := div_pos hs (root_pos x y hl)

theorem ratio_near (hu0 : 0 ≤ u) (hu : u < 1) (ho : Rounding u o) (hpw : PowRounding u pw) (hd : 0 < d) (hl : 0 < l) (hs : 0 < s) (x y : Vec d) :
    Near u (d + 9) ((pcimqSem l s).compute x y / s) (o.div (flPcimq o pw l s x y) s) := by
  have hk := (compute_pos hl hs x y).le
  have := Near.round_after hu0 hu (div_nonneg hk hs.le) (Near.div hu hk hs (near hu0 hu ho hpw hd hl hs x y) (Near.refl u s)) (ho.div _ _ hs.ne')
  rw [show d + 9 = d + 8 + 0 + 1 by ring]
  exact this

theorem gradY_within (hu0 : 0 ≤ u) (hu : u < 1) (ho : Rounding u o) (hpw : PowRounding u pw) (hd : 0 < d) (hl : 0 < l) (hs : 0 < s) (x y : Vec d) (i : Fin d) :
    Within u (3 * d + 35) |(pcimqSem l s).gradY x y i| ((pcimqSem l s).gradY x y i) (flPcimqGradY o pw l s x y i) := by
  have hscp : 0 < 2 * l ^ 2 := by positivity
  have hsc := scale_near hu0 hu ho hpw hl
  have hk : 0 ≤ (pcimqSem l s).compute x y / s := div_nonneg (compute_pos hl hs x y).le hs.le
  have h1 : Within u 1 |x i - y i| (x i - y i) (o.sub (x i) (y i)) := Within.round_after hu0 hu (Within.refl u _) (ho.sub _ _)
  have h2 := Within.round_after hu0 hu (Within.mul hu0 hu (Within.refl u s) h1) (ho.mul _ _)
  have h3 := Within.round_after hu0 hu (Within.div hu0 hu hscp h2 hsc) (ho.div _ _ (Near.pos hu hscp hsc).ne')
  have h4 := Within.of_near hu0 hu (pow_nonneg hk 3) (near_pw hu hpw hk (ratio_near hu0 hu ho hpw hd hl hs x y) 3 (by norm_num))
  have h5 := Within.round_after hu0 hu (Within.mul hu0 hu h3 h4) (ho.mul _ _)
  have e : |(pcimqSem l s).gradY x y i| = |s| * |x i - y i| / (2 * l ^ 2) * ((pcimqSem l s).compute x y / s) ^ 3 := by
    rw [show (pcimqSem l s).gradY x y i = s * (x i - y i) / (2 * l ^ 2) * ((pcimqSem l s).compute x y / s) ^ 3 from rfl, abs_mul, abs_div, abs_mul,
      abs_of_pos hscp, abs_of_nonneg (pow_nonneg hk 3)]
  rw [e]
  exact Within.mono hu0 hu h5 (by omega)

theorem div_within (hu0 : 0 ≤ u) (hu : u < 1) (ho : Rounding u o) (hnum : ∀ n : ℕ, |num n - n| ≤ u * |(n : ℝ)|) (hpw : PowRounding u pw) (hd : 0 < d)
    (hl : 0 < l) (hs : 0 < s) (x y : Vec d) :
    Within u (6 * d + 61) (pcimqDivSize l s x y) ((pcimqSem l s).div x y) (flPcimqDiv o num pw l s x y) := by
  have hscp : 0 < 2 * l ^ 2 := by positivity
  have hsc := scale_near hu0 hu ho hpw hl
  have hscne := (Near.pos hu hscp hsc).ne'
  have hD := sqDist_nonneg x y
  set k := (pcimqSem l s).compute x y / s with hkd
  have hk : 0 ≤ k := div_nonneg (compute_pos hl hs x y).le hs.le
  have hr := ratio_near hu0 hu ho hpw hd hl hs x y
  have h3 := near_pw hu hpw hk hr 3 (by norm_num)
  have h5 := near_pw hu hpw hk hr 5 (by norm_num)
  have hnd : Near u 1 (d : ℝ) (num d) := Near.round hu0 hu (Nat.cast_nonneg d) (hnum d)
  have t1 := Near.round_after hu0 hu (by positivity) (Near.mul hu (Nat.cast_nonneg d) (pow_nonneg hk 3) hnd h3) (ho.mul _ _)
  have t2 := Near.round_after hu0 hu (by positivity) (Near.mul hu (by norm_num : (0 : ℝ) ≤ 3) (pow_nonneg hk 5) (Near.refl u 3) h5) (ho.mul _ _)
  have t3 := Near.round_after hu0 hu (by positivity) (Near.mul hu (by positivity) hD t2 (sqDist_near hu0 hu ho hd x y)) (ho.mul _ _)
  have t4 := Near.round_after hu0 hu (by positivity) (Near.div hu (by positivity) hscp t3 hsc) (ho.div _ _ hscne)
  have w1 := Within.mono hu0 hu (Within.of_near hu0 hu (by positivity) t1) (q := 6 * d + 56) (by omega)
  have w2 := Within.mono hu0 hu (Within.of_near hu0 hu (by positivity) t4) (q := 6 * d + 56) (by omega)
  have w3 := Within.round_after hu0 hu (Within.sub w1 w2) (ho.sub _ _)
  have t6 := Near.round_after hu0 hu (by positivity) (Near.div hu hs.le hscp (Near.refl u s) hsc) (ho.div _ _ hscne)
  have w4 := Within.round_after hu0 hu (Within.mul hu0 hu (Within.of_near hu0 hu (by positivity) t6) w3) (ho.mul _ _)
  have e : pcimqDivSize l s x y = s / (2 * l ^ 2) * (d * k ^ 3 + 3 * k ^ 5 * sqDist x y / (2 * l ^ 2)) := by
    rw [hkd, ratio_eq hs]
    rfl
  rw [e]
  exact Within.mono hu0 hu w4 (by omega)

end Pcimq

section

variable {u : ℝ} {o : FloatOps ℝ} {num : ℕ → ℝ} {pw : ℕ → ℝ → ℝ} {l s : ℝ} {d : ℕ}

/-- C115: the computed PCIMQ kernel and the entries of its gradients have a relative error, and the divergence an error relative to the sizes of its two terms, of
a number of roundings that depends on the dimension only. -/
theorem C115_kernel (hu0 : 0 ≤ u) (hu : u < 1) (ho : Rounding u o) (hnum : ∀ n : ℕ, |num n - n| ≤ u * |(n : ℝ)|) (hpw : PowRounding u pw) (hd : 0 < d)
    (hl : 0 < l) (hs : 0 < s) (x y : Vec d) :
    let K : KExpr d := .pcimq l s
    (let e := 1 / (1 - u) ^ (d + 8) - 1
     |flPcimq o pw l s x y - K.sem.compute x y| ≤ e * K.sem.compute x y) ∧
    (let e := 1 / (1 - u) ^ (3 * d + 35) - 1
     ∀ i, |flPcimqGradY o pw l s x y i - K.sem.gradY x y i| ≤ e * |K.sem.gradY x y i| ∧
       |flPcimqGradX o pw l s x y i - K.sem.gradX x y i| ≤ e * |K.sem.gradX x y i|) ∧
    (let e := 1 / (1 - u) ^ (6 * d + 61) - 1
     |flPcimqDiv o num pw l s x y - K.sem.div x y| ≤ e * pcimqDivSize l s x y) := by
  refine ⟨?_, fun i => ⟨?_, ?_⟩, ?_⟩
  · exact Near.abs_le hu0 hu (Pcimq.compute_pos hl hs x y).le (Pcimq.near hu0 hu ho hpw hd hl hs x y)
  · exact (Pcimq.gradY_within hu0 hu ho hpw hd hl hs x y i).2
  · have := (Pcimq.gradY_within hu0 hu ho hpw hd hl hs x y i).neg.2
    have e : (KExpr.pcimq l s : KExpr d).sem.gradX x y i = -(pcimqSem l s).gradY x y i := rfl
    rw [e, abs_neg]
    exact this
  · exact (Pcimq.div_within hu0 hu ho hnum hpw hd hl hs x y).2

/-- C115: the computed Stein kernel of a PCIMQ kernel, with score functions evaluated with `q` roundings of quantities of size `S`, has an error relative to
the sizes of its four terms. -/
theorem C115_stein (hu0 : 0 ≤ u) (hu : u < 1) (ho : Rounding u o) (hnum : ∀ n : ℕ, |num n - n| ≤ u * |(n : ℝ)|) (hpw : PowRounding u pw) (hd : 0 < d)
    (hl : 0 < l) (hs : 0 < s) (S score score' : Vec d → Vec d) (q : ℕ) (hscore : ∀ x i, Within u q (S x i) (score x i) (score' x i)) (x y : Vec d) :
    Within u (6 * d + 64 + 2 * q) (steinSize l s S x y) ((KExpr.stein (.pcimq l s) score : KExpr d).sem.compute x y)
      (flSteinPcimq o num pw l s score' x y) := by
  obtain ⟨D, rfl⟩ : ∃ D, d = D + 1 := ⟨d - 1, by omega⟩
  have hg := Pcimq.gradY_within hu0 hu ho hpw hd hl hs x y
  have hdot : ∀ {p r : ℕ} {F G f g f' g' : Vec (D + 1)}, (∀ i, Within u p (F i) (f i) (f' i)) → (∀ i, Within u r (G i) (g i) (g' i)) →
      Within u (p + r + (D + 1)) (∑ i, F i * G i) (vdot f g) (o.dot f' g') := by
    intro p r F G f g f' g' hf hg'
    obtain ⟨prod, h1, h2⟩ := ho.dot f' g'
    exact Within.dot hu0 hu hd hf hg' h1 h2
  have a0 := Within.mono hu0 hu (Pcimq.div_within hu0 hu ho hnum hpw hd hl hs x y) (q := 6 * (D + 1) + 61 + 2 * q) (by omega)
  have a1 := Within.mono hu0 hu (hdot (fun i => (hg i).neg) (hscore y)) (q := 6 * (D + 1) + 61 + 2 * q) (by omega)
  have a2 := Within.mono hu0 hu (hdot hg (hscore x)) (q := 6 * (D + 1) + 62 + 2 * q) (by omega)
  have a3 := Within.mono hu0 hu (hdot (fun i => Within.round_after hu0 hu (Within.mul hu0 hu
    (Within.of_near hu0 hu (Pcimq.compute_pos hl hs x y).le (Pcimq.near hu0 hu ho hpw hd hl hs x y)) (hscore x i)) (ho.mul _ _)) (hscore y))
    (q := 6 * (D + 1) + 63 + 2 * q) (by omega)
  have b1 := Within.round_after hu0 hu (Within.add a0 a1) (ho.add _ _)
  have b2 := Within.round_after hu0 hu (Within.add (Within.mono hu0 hu b1 (q := 6 * (D + 1) + 62 + 2 * q) (by omega)) a2) (ho.add _ _)
  have b3 := Within.round_after hu0 hu (Within.add (Within.mono hu0 hu b2 (q := 6 * (D + 1) + 63 + 2 * q) (by omega)) a3) (ho.add _ _)
  have e : (KExpr.stein (.pcimq l s) score : KExpr (D + 1)).sem.compute x y
      = (pcimqSem l s).div x y + vdot (fun i => -(pcimqSem l s).gradY x y i) (score y) + vdot ((pcimqSem l s).gradY x y) (score x)
        + vdot (fun i => (pcimqSem l s).compute x y * score x i) (score y) := by
    change steinCompute (pcimqSem l s) score x y = _
    have e1 : vdot (fun i => (pcimqSem l s).compute x y * score x i) (score y) = (pcimqSem l s).compute x y * vdot (score x) (score y) := by
      simp only [vdot, Finset.mul_sum, mul_assoc]
    rw [e1]
    rfl
  rw [e]
  exact Within.mono hu0 hu b3 (by omega)

/-- C115: the sizes of the terms are bounded: whatever the distance of the points, the size of the Stein kernel's terms is bounded by the parameters and the scores. -/
theorem C115_size (hl : 0 < l) (hs : 0 < s) (S : Vec d → Vec d) (x y : Vec d) (B : ℝ) (hx0 : ∀ i, 0 ≤ S x i) (hy0 : ∀ i, 0 ≤ S y i)
    (hx : ∀ i, S x i ≤ B) (hy : ∀ i, S y i ≤ B) :
    steinSize l s S x y ≤ s * ((d + 3) / (2 * l ^ 2) + 2 * d * B / Real.sqrt (2 * l ^ 2) + d * B ^ 2) := by
  set σ := 2 * l ^ 2 with hσ
  have hσ0 : 0 < σ := by positivity
  set Q := sqDist x y with hQ
  have hQ0 : 0 ≤ Q := Pcimq.sqDist_nonneg x y
  set r := Real.sqrt (1 + Q / σ) with hr
  have hq0 : 0 ≤ Q / σ := div_nonneg hQ0 hσ0.le
  have hr2 : r ^ 2 = 1 + Q / σ := Real.sq_sqrt (by linarith)
  have hr0 : 0 < r := Pcimq.root_pos x y hl
  set κ := 1 / r with hκ
  have hκ0 : 0 < κ := by positivity
  have hr1 : 1 ≤ r := by nlinarith
  have hκ1 : κ ≤ 1 := by rw [hκ, div_le_one hr0]; exact hr1
  have hκQ : κ ^ 2 * (Q / σ) ≤ 1 := by
    rw [hκ, div_pow, one_pow, one_div_mul_eq_div, div_le_one (by positivity), hr2]
    linarith
  have hκ3 : κ ^ 3 ≤ 1 := pow_le_one₀ hκ0.le hκ1
  have t0 : pcimqDivSize l s x y ≤ s * ((d + 3) / σ) := by
    have e : pcimqDivSize l s x y = s / σ * (d * κ ^ 3 + 3 * (κ ^ 3 * (κ ^ 2 * (Q / σ)))) := by
      simp only [pcimqDivSize]
      rw [← hσ, ← hQ, ← hr, ← hκ]
      ring
    rw [e, show s * ((d + 3) / σ) = s / σ * (d + 3) by ring]
    refine mul_le_mul_of_nonneg_left ?_ (by positivity)
    have h1 : κ ^ 3 * (κ ^ 2 * (Q / σ)) ≤ 1 := mul_le_one₀ hκ3 (by positivity) hκQ
    have h2 : (d : ℝ) * κ ^ 3 ≤ d := mul_le_of_le_one_right (Nat.cast_nonneg d) hκ3
    linarith
  have hg : ∀ i, |(pcimqSem l s).gradY x y i| ≤ s / Real.sqrt σ := by
    intro i
    have hsσ : 0 < Real.sqrt σ := Real.sqrt_pos.2 hσ0
    have hss : Real.sqrt σ * Real.sqrt σ = σ := Real.mul_self_sqrt hσ0.le
    have e : |(pcimqSem l s).gradY x y i| = s / Real.sqrt σ * ((|x i - y i| / Real.sqrt σ * κ) * κ ^ 2) := by
      rw [show (pcimqSem l s).gradY x y i = s * (x i - y i) / (2 * l ^ 2) * ((pcimqSem l s).compute x y / s) ^ 3 from rfl, Pcimq.ratio_eq hs, ← hσ, ← hQ, ← hr, ← hκ,
        abs_mul, abs_div, abs_mul, abs_of_pos hs, abs_of_pos hσ0, abs_of_pos (pow_pos hκ0 3)]
      have h1 : s * |x i - y i| / σ = s / Real.sqrt σ * (|x i - y i| / Real.sqrt σ) := by
        rw [div_mul_div_comm, hss]
      rw [h1]
      ring
    rw [e]
    refine mul_le_of_le_one_right (by positivity) (mul_le_one₀ ?_ (by positivity) (pow_le_one₀ hκ0.le hκ1))
    have h1 : |x i - y i| ^ 2 ≤ Q := by
      rw [sq_abs, sq]
      exact Finset.single_le_sum (f := fun i => (x i - y i) * (x i - y i)) (fun i _ => mul_self_nonneg _) (Finset.mem_univ i)
    have h2 : (|x i - y i| / Real.sqrt σ * κ) ^ 2 ≤ 1 := by
      rw [mul_pow, div_pow, Real.sq_sqrt hσ0.le]
      calc |x i - y i| ^ 2 / σ * κ ^ 2 ≤ Q / σ * κ ^ 2 := by gcongr
        _ ≤ 1 := by rw [mul_comm]; exact hκQ
    exact (sq_le_one_iff₀ (by positivity)).1 h2
  have t12 : ∀ z : Vec d, (∀ i, 0 ≤ S z i) → (∀ i, S z i ≤ B) → ∑ i, |(pcimqSem l s).gradY x y i| * S z i ≤ s * (d * B / Real.sqrt σ) := by
    intro z h0 h1
    have : ∑ i, |(pcimqSem l s).gradY x y i| * S z i ≤ ∑ _i : Fin d, s / Real.sqrt σ * B :=
      Finset.sum_le_sum fun i _ => mul_le_mul (hg i) (h1 i) (h0 i) (by positivity)
    refine this.trans (le_of_eq ?_)
    rw [Finset.sum_const, Finset.card_univ, Fintype.card_fin, nsmul_eq_mul]
    ring
  have t3 : ∑ i, (pcimqSem l s).compute x y * S x i * S y i ≤ s * (d * B ^ 2) := by
    have hk : (pcimqSem l s).compute x y ≤ s := by
      change s / Real.sqrt (1 + sqDist x y / (2 * l ^ 2)) ≤ s
      exact div_le_self hs.le hr1
    have : ∑ i, (pcimqSem l s).compute x y * S x i * S y i ≤ ∑ _i : Fin d, s * B * B :=
      Finset.sum_le_sum fun i _ => mul_le_mul (mul_le_mul hk (hx i) (hx0 i) hs.le) (hy i) (hy0 i) (mul_nonneg hs.le ((hx0 i).trans (hx i)))
    refine this.trans (le_of_eq ?_)
    rw [Finset.sum_const, Finset.card_univ, Fintype.card_fin, nsmul_eq_mul]
    ring
  have := t12 x hx0 hx
  have := t12 y hy0 hy
  unfold steinSize
  calc _ ≤ s * ((d + 3) / σ) + s * (d * B / Real.sqrt σ) + s * (d * B / Real.sqrt σ) + s * (d * B ^ 2) := by linarith
    _ = _ := by ring

/-- C115: the KSD with the Stein kernel of a PCIMQ kernel, from the rounded differences of the coordinates to the rounded root. -/
theorem C115_ksd (hu0 : 0 ≤ u) (hu : u < 1) (ho : Rounding u o) (hnum : ∀ n : ℕ, |num n - n| ≤ u * |(n : ℝ)|) (hpw : PowRounding u pw) (hd : 0 < d)
    (hl : 0 < l) (hs : 0 < s) (S score score' : Vec d → Vec d) (q : ℕ) (hscore : ∀ x i, Within u q (S x i) (score x i) (score' x i)) (big : ℝ)
    {m : ℕ} (y : Data m (Vec d) ℝ) (hy0 : ∀ i, 0 ≤ y.weights i) (hy : 0 < ∑ i, y.weights i) (B : ℝ) (hB : ∀ j i, S (y.data j) i ≤ B)
    (bs bs' : PyTree (Option ℤ)) (a b : Option ℤ) (hab : treeLeavesRepeat bs 2 = [a, b]) (hbs' : ValidBlock bs') :
    ∃ r e, flKSD o num (flSteinPcimq o num pw l s score') y bs none none = .ok r ∧
      ksdCompute big (KExpr.stein (.pcimq l s) score : KExpr d).sem.compute y bs' none none = .ok e ∧
      |r - e| ≤ u * e + (1 + u) * Real.sqrt ((1 / (1 - u) ^ ksdRoundings (6 * d + 64 + 2 * q) m a b - 1)
        * (s * ((d + 3) / (2 * l ^ 2) + 2 * d * B / Real.sqrt (2 * l ^ 2) + d * B ^ 2))) := by
  obtain ⟨r, e, h1, h2, h3⟩ := C114_ksd hu0 hu ho num hnum big (steinSize l s S) (KExpr.stein (.pcimq l s) score : KExpr d).sem.compute
    (flSteinPcimq o num pw l s score') (6 * d + 64 + 2 * q) (C115_stein hu0 hu ho hnum hpw hd hl hs S score score' q hscore) y hy0 hy none none
    bs bs' a b hab hbs'
  refine ⟨r, e, h1, h2, h3.trans (add_le_add le_rfl (mul_le_mul_of_nonneg_left (Real.sqrt_le_sqrt (mul_le_mul_of_nonneg_left ?_ ?_)) (by linarith)))⟩
  · have avg_le : ∀ {N : ℕ} (w f : Fin N → ℝ) (R : ℝ), (∀ i, 0 ≤ w i) → 0 < ∑ i, w i → (∀ i, f i ≤ R) → avg w f ≤ R := by
      intro N w f R hw hW hf
      rw [avg, div_le_iff₀ hW, Finset.mul_sum]
      exact Finset.sum_le_sum fun i _ => by rw [mul_comm R]; exact mul_le_mul_of_nonneg_left (hf i) (hw i)
    simp only [ksdSize, add_zero]
    exact avg_le _ _ _ hy0 hy fun i => avg_le _ _ _ hy0 hy fun j =>
      C115_size hl hs S _ _ B (fun t => (hscore _ t).size_nonneg) (fun t => (hscore _ t).size_nonneg) (hB i) (hB j)
  · linarith [Within.one_le hu0 hu (ksdRoundings (6 * d + 64 + 2 * q) m a b)]

end

/-! ### Cases -/

/-- Powers by repeated multiplication, each product rounded. -/
noncomputable def roundedPow (rd : ℝ → ℝ) : ℕ → ℝ → ℝ
  | 0, _ => 1
  | 1, a => a
  | n + 2, a => rd (roundedPow rd (n + 1) a * a)

theorem roundedPow_rounding {u : ℝ} (hu0 : 0 ≤ u) (hu : u < 1) {rd : ℝ → ℝ} (h : ∀ a, |rd a - a| ≤ u * |a|) : PowRounding u (roundedPow rd) := by
  intro n hn a ha
  obtain ⟨n, rfl⟩ : ∃ m, n = m + 1 := ⟨n - 1, by omega⟩
  clear hn
  induction n with
  | zero => simpa [roundedPow] using Near.refl u a
  | succ n ih =>
    have := Near.round_after hu0 hu (by positivity) (Near.mul hu (pow_nonneg ha _) ha ih (Near.refl u a)) (h _)
    rw [← pow_succ] at this
    exact this

example := C115_kernel (u := (1 / 2) ^ 24) (by norm_num) (by norm_num) (roundedOps_rounding fun a => binaryRound_error 23 a) (num := fun n => binaryRound 23 n)
    (fun n => binaryRound_error 23 n) (roundedPow_rounding (by norm_num) (by norm_num) fun a => binaryRound_error 23 a) (d := 3) (by norm_num) (l := 1 / 2) (s := 3)
    (by norm_num) (by norm_num) ![0, 1, 2] ![1 / 3, -1, 7]

/-- The score function of the standard normal distribution, exact. -/
example := C115_stein (u := (1 / 2) ^ 24) (by norm_num) (by norm_num) (roundedOps_rounding fun a => binaryRound_error 23 a) (num := fun n => binaryRound 23 n)
    (fun n => binaryRound_error 23 n) (roundedPow_rounding (by norm_num) (by norm_num) fun a => binaryRound_error 23 a) (d := 2) (by norm_num) (l := 1 / 2) (s := 3)
    (by norm_num) (by norm_num) (fun x i => |-x i|) (fun x i => -x i) (fun x i => -x i) 0 (fun x i => Within.refl _ _) ![0, 1] ![1 / 3, -1]

example := C115_size (l := 1 / 2) (s := 3) (d := 2) (by norm_num) (by norm_num) (fun x i => |-x i|) ![0, 1] ![1 / 3, -1] 1
    (fun _ => abs_nonneg _) (fun _ => abs_nonneg _) (by intro i; fin_cases i <;> norm_num) (by intro i; fin_cases i <;> norm_num)

/-- Single precision, two points, and a score function that is itself rounded once. -/
example := C115_ksd (u := (1 / 2) ^ 24) (by norm_num) (by norm_num) (roundedOps_rounding fun a => binaryRound_error 23 a) (num := fun n => binaryRound 23 n)
    (fun n => binaryRound_error 23 n) (roundedPow_rounding (by norm_num) (by norm_num) fun a => binaryRound_error 23 a) (d := 2) (by norm_num) (l := 1 / 2) (s := 3)
    (by norm_num) (by norm_num) (fun x i => |-x i / 3|) (fun x i => -x i / 3) (fun x i => binaryRound 23 (-x i / 3)) 1
    (fun x i => Within.round_after (by norm_num) (by norm_num) (Within.refl _ _) (binaryRound_error 23 _)) 1000
    (m := 2) ⟨![![0, 1], ![1 / 3, -1]], fun _ => 1⟩ (fun _ => zero_le_one) (by simp) 1
    (by intro j i; fin_cases j <;> fin_cases i <;> norm_num [abs_le]) (.leaf (some 2)) (.leaf none) (some 2) (some 2) rfl (.inl rfl)

end Coreax
