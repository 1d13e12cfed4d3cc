import Verif.Model.RoundedMatern
import Verif.Props.RoundedKernel

/-!
# Rounding errors of the Matern kernel of any degree

The value is a polynomial of the distance times an exponential of it. Each alone has errors that grow with the distance; the product has not.
-/

namespace Coreax

open Spec

namespace Spec

/-- `b ** k` of a number that is not negative is accurate to `c` roundings. -/
def NatPow (u : ℝ) (c : ℕ) (np : ℝ → ℕ → ℝ) : Prop := ∀ b, 0 ≤ b → ∀ k, Near u c (b ^ k) (np b k)

/-- `factorial` is accurate to `e` roundings. -/
def Factorials (u : ℝ) (e : ℕ) (fac : ℕ → ℝ) : Prop := ∀ n, Near u e (n.factorial : ℝ) (fac n)

/-- The size of a Matern kernel of degree `p`: does not depend on the points or on the length scale. -/
noncomputable def maternSize (s : ℝ) (p : ℕ) : ℝ :=
  s ^ 2 * ((p.factorial : ℝ) / (2 * p).factorial * ∑ i ∈ Finset.range (p + 1), ((p + i).factorial : ℝ) / (i.factorial * (p - i).factorial) * (2 * ((p - i : ℕ) + 1)) ^ (p - i))

end Spec

/-- The number of roundings of a Matern kernel. -/
def maternRoundings (d p c e : ℕ) : ℕ := (p + 1) * (d + 6) + (2 * p + 2 * c + 5 * e + 8)

namespace RMatern

variable {u : ℝ} {o : FloatOps ℝ} {pw : ℕ → ℝ → ℝ} {np : ℝ → ℕ → ℝ} {fac : ℕ → ℝ} {ex : ℝ → ℝ} {l s : ℝ} {d c e : ℕ}

theorem mul_exp_le_half (a : ℝ) : a * Real.exp (-a) ≤ 1 / 2 := by
  have h : a ≤ Real.exp (a - 1) := by linarith [Real.add_one_le_exp (a - 1)]
  have h1 : (2 : ℝ) ≤ Real.exp 1 := by linarith [Real.add_one_le_exp (1 : ℝ)]
  have h2 : Real.exp (a - 1) * Real.exp (-a) * Real.exp 1 = 1 := by rw [← Real.exp_add, ← Real.exp_add, show a - 1 + -a + 1 = 0 by ring, Real.exp_zero]
  have h3 := mul_le_mul_of_nonneg_right h (Real.exp_pos (-a)).le
  have h4 : 0 < Real.exp (a - 1) * Real.exp (-a) := by positivity
  nlinarith

theorem sq_mul_exp_le {a : ℝ} (ha : 0 ≤ a) : a * (a * Real.exp (-a)) ≤ 1 := by
  have h := mul_exp_le_half (a / 2)
  have h0 : 0 ≤ a / 2 * Real.exp (-(a / 2)) := by positivity
  have e : Real.exp (-a) = Real.exp (-(a / 2)) * Real.exp (-(a / 2)) := by rw [← Real.exp_add]; congr 1; ring
  rw [e]
  nlinarith

theorem hump {a b r : ℝ} (ha : 0 ≤ a) (hab : a ≤ b) (hr : 0 ≤ r) (hb : b - a ≤ r * a) : |b * Real.exp (-b) - a * Real.exp (-a)| ≤ r := by
  have h1 : Real.exp (-b) ≤ Real.exp (-a) := Real.exp_le_exp.2 (by linarith)
  have h2 := RExp.exp_sub_le a b
  have h3 := sq_mul_exp_le ha
  have h4 := RExp.mul_exp_le a
  have h0 := Real.exp_pos (-b)
  have h0' := Real.exp_pos (-a)
  have e : b * Real.exp (-b) - a * Real.exp (-a) = (b - a) * Real.exp (-b) - a * (Real.exp (-a) - Real.exp (-b)) := by ring
  rw [e, abs_le]
  have p1 : 0 ≤ (b - a) * Real.exp (-b) := mul_nonneg (by linarith) h0.le
  have p2 : 0 ≤ a * (Real.exp (-a) - Real.exp (-b)) := mul_nonneg ha (by linarith)
  have q1 : (b - a) * Real.exp (-b) ≤ r := calc
    _ ≤ (r * a) * Real.exp (-a) := mul_le_mul hb h1 h0.le (mul_nonneg hr ha)
    _ = r * (a * Real.exp (-a)) := by ring
    _ ≤ r * 1 := mul_le_mul_of_nonneg_left h4 hr
    _ = r := mul_one r
  have q2 : a * (Real.exp (-a) - Real.exp (-b)) ≤ r := calc
    _ ≤ a * (Real.exp (-a) * (b - a)) := mul_le_mul_of_nonneg_left h2 ha
    _ ≤ a * (Real.exp (-a) * (r * a)) := mul_le_mul_of_nonneg_left (mul_le_mul_of_nonneg_left hb h0'.le) ha
    _ = r * (a * (a * Real.exp (-a))) := by ring
    _ ≤ r * 1 := mul_le_mul_of_nonneg_left h3 hr
    _ = r := mul_one r
  constructor <;> linarith

theorem hump_within (hu0 : 0 ≤ u) (hu : u < 1) {q : ℕ} {z z' : ℝ} (hz : 0 ≤ z) (h : Near u q z z') : Within u q 1 (z * Real.exp (-z)) (z' * Real.exp (-z')) := by
  have hz' := Near.nonneg hu hz h
  have hr : 0 < (1 - u) ^ q := pow_pos (by linarith) _
  have hr1 : 0 ≤ 1 / (1 - u) ^ q - 1 := by linarith [Within.one_le hu0 hu q]
  refine ⟨?_, ?_⟩
  · rw [abs_of_nonneg (by positivity)]
    exact RExp.mul_exp_le z
  rw [mul_one]
  have g : ∀ {v w : ℝ}, (1 - u) ^ q * v ≤ w → v - w ≤ (1 / (1 - u) ^ q - 1) * w := by
    intro v w hvw
    have : v ≤ w / (1 - u) ^ q := by rw [le_div_iff₀ hr]; linarith
    have e : (1 / (1 - u) ^ q - 1) * w = w / (1 - u) ^ q - w := by ring
    linarith
  rcases le_total z z' with hle | hle
  · exact hump hz hle hr1 (g h.2)
  · rw [abs_sub_comm]
    exact hump hz' hle hr1 (g h.1)

/-- A power times an exponential. -/
theorem powExp_within (hu0 : 0 ≤ u) (hu : u < 1) {q : ℕ} {z z' : ℝ} (hz : 0 ≤ z) (h : Near u q z z') (j : ℕ) :
    Within u (j * q + q) ((j + 1 : ℝ) ^ j) (z ^ j * Real.exp (-z)) (z' ^ j * Real.exp (-z')) := by
  have hm : (0 : ℝ) < j + 1 := by positivity
  have hn : Near u q (z / (j + 1)) (z' / (j + 1)) := by
    have := Near.div hu hz hm h (Near.refl u ((j : ℝ) + 1))
    rwa [Nat.add_zero] at this
  have hz0 : 0 ≤ z / (j + 1) := div_nonneg hz hm.le
  have h1 := RKernel.within_pow hu0 hu (hump_within hu0 hu hz0 hn) j
  have h2 := Within.mul hu0 hu h1 (RExp.exp_within hu0 hu hz0 hn)
  have h3 := Within.mul hu0 hu (Within.refl u (((j : ℝ) + 1) ^ j)) h2
  have e : ∀ t : ℝ, ((j : ℝ) + 1) ^ j * ((t / (j + 1) * Real.exp (-(t / (j + 1)))) ^ j * Real.exp (-(t / (j + 1)))) = t ^ j * Real.exp (-t) := by
    intro t
    have e1 : Real.exp (-(t / (j + 1))) ^ j * Real.exp (-(t / (j + 1))) = Real.exp (-t) := by
      rw [← pow_succ, ← Real.exp_nat_mul]
      congr 1
      push_cast
      field_simp
    rw [mul_pow, mul_assoc, e1, ← mul_assoc, ← mul_pow, mul_div_cancel₀ _ hm.ne']
  rw [e, e, abs_of_pos (by positivity), one_pow, mul_one, mul_one, Nat.zero_add] at h3
  exact h3

/-- The exact kernel as a function of the scaled distance. -/
noncomputable def profile (s : ℝ) (p : ℕ) (z : ℝ) : ℝ :=
  s ^ 2 * Real.exp (-z) * p.factorial / (2 * p).factorial * ∑ i ∈ Finset.range (p + 1), ((p + i).factorial : ℝ) / (i.factorial * (p - i).factorial) * (2 * z) ^ (p - i)

theorem profile_eq (s : ℝ) (p : ℕ) (z : ℝ) : profile s p z =
    s ^ 2 * ((p.factorial : ℝ) / (2 * p).factorial * ∑ i ∈ Finset.range (p + 1), ((p + i).factorial : ℝ) / (i.factorial * (p - i).factorial) * (2 ^ (p - i) * (z ^ (p - i) * Real.exp (-z)))) := by
  have : ∀ i ∈ Finset.range (p + 1), ((p + i).factorial : ℝ) / (i.factorial * (p - i).factorial) * (2 ^ (p - i) * (z ^ (p - i) * Real.exp (-z)))
      = Real.exp (-z) * (((p + i).factorial : ℝ) / (i.factorial * (p - i).factorial) * (2 * z) ^ (p - i)) := by
    intro i _
    rw [mul_pow]
    ring
  rw [Finset.sum_congr rfl this, ← Finset.mul_sum, profile]
  ring

theorem compute_eq (l s : ℝ) (p : ℕ) (x y : Vec d) : maternCompute l s p x y = profile s p (Real.sqrt (2 * p + 1) * nrm x y / l) := by
  unfold maternCompute profile
  rcases Nat.eq_zero_or_pos p with rfl | hp
  · simp
  · simp only [hp, if_true]

theorem profile_within (hu0 : 0 ≤ u) (hu : u < 1) (s : ℝ) (p : ℕ) {q : ℕ} {z z' : ℝ} (hz : 0 ≤ z) (h : Near u q z z') :
    Within u ((p + 1) * q) (maternSize s p) (profile s p z) (profile s p z') := by
  rw [profile_eq, profile_eq]
  have hsum : Within u ((p + 1) * q) (∑ i ∈ Finset.range (p + 1), ((p + i).factorial : ℝ) / (i.factorial * (p - i).factorial) * (2 * ((p - i : ℕ) + 1)) ^ (p - i)) _ _ :=
    Within.sum (Finset.range (p + 1)) _
    (fun i => ((p + i).factorial : ℝ) / (i.factorial * (p - i).factorial) * (2 ^ (p - i) * (z ^ (p - i) * Real.exp (-z))))
    (fun i => ((p + i).factorial : ℝ) / (i.factorial * (p - i).factorial) * (2 ^ (p - i) * (z' ^ (p - i) * Real.exp (-z')))) fun i _ => by
      have h1 := Within.mul hu0 hu (Within.refl u ((2 : ℝ) ^ (p - i))) (powExp_within hu0 hu hz h (p - i))
      have h2 := Within.mul hu0 hu (Within.refl u (((p + i).factorial : ℝ) / (i.factorial * (p - i).factorial))) h1
      rw [abs_of_nonneg (by positivity), abs_of_nonneg (by positivity), ← mul_pow, Nat.zero_add, Nat.zero_add] at h2
      refine Within.mono hu0 hu h2 ?_
      rw [← Nat.succ_mul]
      exact Nat.mul_le_mul_right q (Nat.succ_le_succ (Nat.sub_le p i))
  have h1 := Within.mul hu0 hu (Within.refl u ((p.factorial : ℝ) / (2 * p).factorial)) hsum
  have h2 := Within.mul hu0 hu (Within.refl u (s ^ 2)) h1
  rw [abs_of_nonneg (by positivity), abs_of_nonneg (by positivity), Nat.zero_add, Nat.zero_add] at h2
  exact h2

theorem body_near (hu0 : 0 ≤ u) (hu : u < 1) (ho : Rounding u o) (hd : 0 < d) (hl : 0 < l) (p : ℕ) (x y : Vec d) :
    Near u (d + 6) (Real.sqrt (2 * p + 1) * nrm x y / l) (flMaternBody o l p x y) := by
  have h1 : Near u (d + 3) (nrm x y) (flNorm o x y) := by
    have := RExp.distance_near hu0 hu ho hd .exponential x y
    have e : ExpDistance .exponential x y = nrm x y := by simp [ExpDistance, nrm, pow_two]
    rwa [e] at this
  have h0 : 0 ≤ nrm x y := Real.sqrt_nonneg _
  have hp : (0 : ℝ) ≤ 2 * p + 1 := by positivity
  have h2 := ho.root (2 * p + 1)
  rw [max_eq_right hp] at h2
  have h3 : Near u 1 (Real.sqrt (2 * p + 1)) (o.root (2 * p + 1)) :=
    Near.round hu0 hu (Real.sqrt_nonneg _) (by rw [abs_of_nonneg (Real.sqrt_nonneg _)]; exact h2)
  have h4 := Near.round_after hu0 hu (by positivity) (Near.mul hu (Real.sqrt_nonneg _) h0 h3 h1) (ho.mul _ _)
  have h5 := Near.round_after hu0 hu (by positivity) (Near.div hu (by positivity) hl h4 (Near.refl u l)) (ho.div _ _ hl.ne')
  rwa [show 1 + (d + 3) + 1 + 0 + 1 = d + 6 by omega] at h5

theorem term_near (hu0 : 0 ≤ u) (hu : u < 1) (ho : Rounding u o) (hnp : NatPow u c np) (hfac : Factorials u e fac) (p i : ℕ) {z : ℝ} (hz : 0 ≤ z) :
    Near u (3 * e + 2 + (p + c) + 1) (((p + i).factorial : ℝ) / (i.factorial * (p - i).factorial) * (2 * z) ^ (p - i)) (flMaternTerm o np fac p z i) := by
  have hf : ∀ n : ℕ, (0 : ℝ) < n.factorial := fun n => by exact_mod_cast n.factorial_pos
  have h1 := Near.round_after hu0 hu (by positivity) (Near.mul hu (hf i).le (hf (p - i)).le (hfac i) (hfac (p - i))) (ho.mul _ _)
  have h2 := Near.round_after hu0 hu (by positivity) (Near.div hu (hf (p + i)).le (mul_pos (hf i) (hf (p - i))) (hfac (p + i)) h1)
    (ho.div _ _ (Near.pos hu (mul_pos (hf i) (hf (p - i))) h1).ne')
  have h3 := Near.round_after hu0 hu (by positivity) (Near.refl u (2 * z)) (ho.mul 2 z)
  have h4 := Near.trans hu (Pcimq.near_pow hu (by positivity) h3 (p - i)) (hnp _ (Near.nonneg hu (by positivity) h3) (p - i))
  have h5 := Near.round_after hu0 hu (by positivity) (Near.mul hu (by positivity) (by positivity) h2 h4) (ho.mul _ _)
  rw [flMaternTerm, ho.two]
  exact Near.mono hu0 hu (by positivity) h5 (by have := Nat.sub_le p i; omega)

theorem profile_near (hu0 : 0 ≤ u) (hu : u < 1) (ho : Rounding u o) (hpw : PowRounding u pw) (hnp : NatPow u c np) (hfac : Factorials u e fac) (hex : ExpRounding u c ex)
    (hd : 0 < d) (hl : 0 < l) (hs : 0 < s) (p : ℕ) (x y : Vec d) :
    Near u (2 * p + 2 * c + 5 * e + 8) (profile s p (flMaternBody o l p x y)) (flMatern o pw np fac ex l s p x y) := by
  have hz : 0 ≤ flMaternBody o l p x y := Near.nonneg hu (div_nonneg (mul_nonneg (Real.sqrt_nonneg _) (Real.sqrt_nonneg _)) hl.le) (body_near hu0 hu ho hd hl p x y)
  unfold flMatern profile
  dsimp only
  generalize flMaternBody o l p x y = z at hz ⊢
  have hf : ∀ n : ℕ, (0 : ℝ) < n.factorial := fun n => by exact_mod_cast n.factorial_pos
  have e0 : 0 < Real.exp (-z) := Real.exp_pos _
  have h1 := Near.round_after hu0 hu (by positivity) (Near.mul hu (by positivity) e0.le (hpw 2 (by norm_num) s hs.le) (hex (-z) (by linarith))) (ho.mul _ _)
  have h2 := Near.round_after hu0 hu (by positivity) (Near.mul hu (by positivity) (hf p).le h1 (hfac p)) (ho.mul _ _)
  have h3 := Near.round_after hu0 hu (by positivity) (Near.div hu (by positivity) (hf (2 * p)) h2 (hfac (2 * p))) (ho.div _ _ (Near.pos hu (hf _) (hfac (2 * p))).ne')
  have hS0 : 0 ≤ ∑ i ∈ Finset.range (p + 1), ((p + i).factorial : ℝ) / (i.factorial * (p - i).factorial) * (2 * z) ^ (p - i) := Finset.sum_nonneg fun i _ => by positivity
  have hS : Near u (3 * e + 2 + (p + c) + 1 + p) (∑ i ∈ Finset.range (p + 1), ((p + i).factorial : ℝ) / (i.factorial * (p - i).factorial) * (2 * z) ^ (p - i))
      (if 0 < p then o.sum fun i : Fin (p + 1) => flMaternTerm o np fac p z i else 1) := by
    split_ifs with hp
    · have t := fun i : ℕ => term_near hu0 hu ho hnp hfac p i hz
      have t2 := (RSum.near hu0 hu (ho.sum fun i : Fin (p + 1) => flMaternTerm o np fac p z i) (by
        intro a ha
        obtain ⟨i, rfl⟩ := List.mem_ofFn.1 ha
        exact Near.nonneg hu (by positivity) (t i))).2
      rw [List.length_ofFn, List.sum_ofFn] at t2
      have t3 := Near.trans hu (Near.sum Finset.univ _ _ fun (i : Fin (p + 1)) _ => t i) t2
      rw [Finset.sum_range]
      exact t3
    · obtain rfl : p = 0 := by omega
      have := Near.mono hu0 hu zero_le_one (Near.refl u 1) (Nat.zero_le (3 * e + 2 + (0 + c) + 1 + 0))
      simpa using this
  have h4 := Near.round_after hu0 hu (by positivity) (Near.mul hu (by positivity) hS0 h3 hS) (ho.mul _ _)
  exact Near.mono hu0 hu (by positivity) h4 (by omega)

theorem profile_nonneg (s : ℝ) (p : ℕ) {z : ℝ} (hz : 0 ≤ z) : 0 ≤ profile s p z := by
  unfold profile
  have : 0 ≤ ∑ i ∈ Finset.range (p + 1), ((p + i).factorial : ℝ) / (i.factorial * (p - i).factorial) * (2 * z) ^ (p - i) := Finset.sum_nonneg fun i _ => by positivity
  positivity

end RMatern

open RMatern

variable {u : ℝ} {o : FloatOps ℝ} {pw : ℕ → ℝ → ℝ} {np : ℝ → ℕ → ℝ} {rp : ℝ → ℝ → ℝ} {fac : ℕ → ℝ} {ex : ℝ → ℝ} {l s : ℝ} {d c e : ℕ}

/-- C120, the Matern kernel of any degree: the error relative to a size that does not depend on the points or the length scale. -/
theorem C120_matern (hu0 : 0 ≤ u) (hu : u < 1) (ho : Rounding u o) (hpw : PowRounding u pw) (hnp : NatPow u c np) (hfac : Factorials u e fac) (hex : ExpRounding u c ex)
    (hd : 0 < d) (hl : 0 < l) (hs : 0 < s) (p : ℕ) (x y : Vec d) :
    Within u (maternRoundings d p c e) (maternSize s p) (maternCompute l s p x y) (flMatern o pw np fac ex l s p x y) := by
  have hz : 0 ≤ Real.sqrt (2 * p + 1) * nrm x y / l := div_nonneg (mul_nonneg (Real.sqrt_nonneg _) (Real.sqrt_nonneg _)) hl.le
  have hb := body_near hu0 hu ho hd hl p x y
  rw [compute_eq]
  have h1 := profile_within hu0 hu s p hz hb
  have h0 := profile_nonneg s p (Near.nonneg hu hz hb)
  have h2 := Within.of_near hu0 hu h0 (profile_near hu0 hu ho hpw hnp hfac hex hd hl hs p x y)
  exact Within.trans hu0 hu h1 h2 ((le_abs_self _).trans h1.abs_le)

/-- C120, kernels of any nesting with Matern kernels inside. -/
theorem C120_kernel (hu0 : 0 ≤ u) (hu : u < 1) (ho : Rounding u o) (hpw : PowRounding u pw) (hpw' : SignedPow u pw) (hrp : RealPow u c rp) (hnp : NatPow u c np)
    (hfac : Factorials u e fac) (hex : ExpRounding u c ex) (hd : 0 < d) (leaf S : KExpr d → Vec d → Vec d → ℝ) (P : KExpr d → ℕ)
    (hleaf : ∀ k, k.External → (∀ l s n, k ≠ .matern l s n) → k.check = .ok () → ∀ x y, Within u (P k) (S k x y) (k.sem.compute x y) (leaf k x y))
    (hS : ∀ l s n x y, S (.matern l s n) x y = maternSize s n.toInt.toNat) (hP : ∀ l s n, P (.matern l s n) = maternRoundings d n.toInt.toNat c e)
    (K : KExpr d) (hc : K.check = .ok ()) (hK : WeightingNonzero K) (x y : Vec d) :
    Within u (kernelRoundings c P K) (kernelSize S K x y) (K.sem.compute x y) (flKernel o pw rp ex (maternLeaf o pw np fac ex leaf) K x y) := by
  refine C119_kernel hu0 hu ho hpw hpw' hrp hex hd _ S P ?_ K hc hK x y
  intro k hk hc x y
  cases k with
  | matern l s n =>
    rw [hS, hP]
    exact C120_matern hu0 hu ho hpw hnp hfac hex hd (checkPos_ok (bind_ok hc).1) (checkPos_ok (bind_ok (bind_ok hc).2).1) n.toInt.toNat x y
  | periodic l s p => exact hleaf _ hk (by simp) hc x y
  | poisson r s => exact hleaf _ hk (by simp) hc x y
  | stein k f => exact hleaf _ hk (by simp) hc x y
  | _ => exact hk.elim

/-- C120, MMD with a Matern kernel. -/
theorem C120_mmd (hu0 : 0 ≤ u) (hu : u < 1) (ho : Rounding u o) (hpw : PowRounding u pw) (hnp : NatPow u c np) (hfac : Factorials u e fac) (hex : ExpRounding u c ex)
    (hd : 0 < d) (hl : 0 < l) (hs : 0 < s) (p : ℕ) (big : ℝ) {n m : ℕ} (x : Data n (Vec d) ℝ) (y : Data m (Vec d) ℝ)
    (hx0 : ∀ i, 0 ≤ x.weights i) (hx : 0 < ∑ i, x.weights i) (hy0 : ∀ i, 0 ≤ y.weights i) (hy : 0 < ∑ i, y.weights i)
    (bs bs' : PyTree (Option ℤ)) (a b : Option ℤ) (hab : treeLeavesRepeat bs 2 = [a, b]) (hbs' : ValidBlock bs') :
    ∃ r t, flMMD o (flMatern o pw np fac ex l s p) x y bs = .ok r ∧ mmdCompute big (maternCompute l s p) x y bs' = .ok t ∧
      |r - t| ≤ u * t + (1 + u) * Real.sqrt ((1 / (1 - u) ^ (mmdRoundings (maternRoundings d p c e) n m a b + 2) - 1) * (4 * maternSize s p)) := by
  obtain ⟨r, t, h1, h2, h3⟩ := C114_mmd hu0 hu ho big (fun _ _ => maternSize s p) (maternCompute l s p) (flMatern o pw np fac ex l s p) (maternRoundings d p c e)
    (fun x y => C120_matern hu0 hu ho hpw hnp hfac hex hd hl hs p x y) x y hx0 hx hy0 hy bs bs' a b hab hbs'
  refine ⟨r, t, h1, h2, ?_⟩
  simp only [KernelSums.avg_const hx.ne', KernelSums.avg_const hy.ne'] at h3
  rwa [show maternSize s p + maternSize s p + 2 * maternSize s p = 4 * maternSize s p by ring] at h3

section
variable {n : ℕ} [NeZero n]

/-- C120, herding (the default, distinct points on equally weighted rows) with a Matern kernel evaluated in the same arithmetic: the rate, with no assumption on the points. -/
theorem C120_herding (hu0 : 0 ≤ u) (hu : u < 1) (ho : Rounding u o) (hpw : PowRounding u pw) (hnp : NatPow u c np) (hfac : Factorials u e fac) (hex : ExpRounding u c ex)
    (hd : 0 < d) (hl : 0 < l) (hs : 0 < s) (p : ℕ) (pre : Data n (Vec d) ℝ) (huw : UniformWeights pre.weights) (size : ℕ) (hsize : 0 < size) (hpos : PosCount pre.weights size)
    (bs : PyTree (Option ℤ)) (bx bY : Option ℤ) (hbs : treeLeavesRepeat bs 2 = [bx, bY]) (ord : List (Fin size)) :
    ∃ (f : Fin size → Fin n) (rm : List ℝ), flHerdingReduce o (flMatern o pw np fac ex l s p) true bs size pre ord = .ok (⟨fun t => (f t : ℤ), fun _ => 1⟩, rm) ∧
      Function.Injective f ∧
      mmdSq (maternCompute l s p) pre.data pre.weights (fun t => pre.data (f t)) (fun _ => 1)
        ≤ (maternSize s p - (avg pre.weights fun i => avg pre.weights fun j => maternCompute l s p (pre.data i) (pre.data j)) / 2) / size
          + 2 * signedResidualError u (maternSize s p) (max (rowMeanRoundings (maternRoundings d p c e) n bx) (maternRoundings d p c e + size)) * (size + 1) / size := by
  have hc : (KExpr.matern l s (.int p) : KExpr d).check = .ok () := by simp [KExpr.check, checkPos, checkIntGe, hl.not_ge, hs.not_ge, bind, Except.bind]
  have hk := C08_psd (KExpr.matern l s (.int p) : KExpr d) hc trivial
  exact C117_rate_unique hu0 hu ho (fun _ _ => maternSize s p) (maternCompute l s p) (flMatern o pw np fac ex l s p) hk.1 (maternRoundings d p c e)
    (fun x y => C120_matern hu0 hu ho hpw hnp hfac hex hd hl hs p x y) pre (hk.2 n pre.data) huw size hsize hpos (maternSize s p) (fun _ _ => le_rfl) bs bx bY hbs ord

end

/-! ### Cases -/

theorem binaryNatPow : NatPow ((1 / 2) ^ 24) 1 fun b k => binaryRound 23 (b ^ k) :=
  fun b hb k => Near.round (by norm_num) (by norm_num) (pow_nonneg hb k) (binaryRound_error 23 _)

theorem binaryFactorials : Factorials ((1 / 2) ^ 24) 1 fun n => binaryRound 23 n.factorial :=
  fun n => Near.round (by norm_num) (by norm_num) (by positivity) (binaryRound_error 23 _)

/-- The size of the default degree. -/
example (s : ℝ) : maternSize s 1 = 3 * s ^ 2 := by norm_num [maternSize, Finset.sum_range_succ, Nat.factorial]; ring

example := C120_matern (u := (1 / 2) ^ 24) (by norm_num) (by norm_num) (roundedOps_rounding fun a => binaryRound_error 23 a)
    (roundedPow_rounding (by norm_num) (by norm_num) fun a => binaryRound_error 23 a) binaryNatPow binaryFactorials binaryExp_rounding (d := 3) (by norm_num) (l := 1 / 2) (s := 3)
    (by norm_num) (by norm_num) 2 ![0, 1, 2] ![1 / 3, -1, 7]

example := C120_mmd (u := (1 / 2) ^ 24) (by norm_num) (by norm_num) (roundedOps_rounding fun a => binaryRound_error 23 a)
    (roundedPow_rounding (by norm_num) (by norm_num) fun a => binaryRound_error 23 a) binaryNatPow binaryFactorials binaryExp_rounding (d := 2) (by norm_num) (l := 1 / 2) (s := 3)
    (by norm_num) (by norm_num) 1 1000
    (n := 2) (m := 1) ⟨![![0, 1], ![1 / 3, -1]], fun _ => 1⟩ ⟨![![5, 7]], fun _ => 2⟩
    (fun _ => zero_le_one) (by simp) (fun _ => by norm_num) (by simp) (.leaf (some 2)) (.leaf none) (some 2) (some 2) rfl (.inl rfl)

example := C120_herding (u := (1 / 2) ^ 24) (by norm_num) (by norm_num) (roundedOps_rounding fun a => binaryRound_error 23 a)
    (roundedPow_rounding (by norm_num) (by norm_num) fun a => binaryRound_error 23 a) binaryNatPow binaryFactorials binaryExp_rounding (d := 2) (by norm_num) (l := 1 / 2) (s := 3)
    (by norm_num) (by norm_num) 2
    (n := 3) ⟨![![0, 1], ![1 / 3, -1], ![1, 1]], ![1, 1, 1]⟩
    ⟨1, by norm_num, by intro i; fin_cases i <;> simp⟩
    2 (by norm_num) (by simp [PosCount, Finset.filter_true_of_mem, Fin.forall_fin_succ]) (.leaf (some 2)) (some 2) (some 2) rfl (List.finRange 2)

open Classical in
example := C120_kernel (u := (1 / 2) ^ 24) (by norm_num) (by norm_num) (roundedOps_rounding fun a => binaryRound_error 23 a)
    (roundedPow_rounding (by norm_num) (by norm_num) fun a => binaryRound_error 23 a) (roundedPow_signed (by norm_num) (by norm_num) fun a => binaryRound_error 23 a)
    binaryRealPow binaryNatPow binaryFactorials binaryExp_rounding (d := 2) (by norm_num) (fun k x y => binaryRound 23 (k.sem.compute x y))
    (fun k x y => match k with | .matern _ s n => maternSize s n.toInt.toNat | k => |k.sem.compute x y|)
    (fun k => match k with | .matern _ _ n => maternRoundings 2 n.toInt.toNat 1 1 | _ => 1)
    (by
      intro k hk hm hc x y
      cases k with
      | matern l s n => exact absurd rfl (hm l s n)
      | periodic l s p => exact binaryLeaf _ hk hc x y
      | poisson r s => exact binaryLeaf _ hk hc x y
      | stein k f => exact binaryLeaf _ hk hc x y
      | _ => exact hk.elim)
    (fun _ _ _ _ _ => rfl) (fun _ _ _ => rfl) roundedCase roundedCase_check roundedCase_nonzero ![0, 1] ![1 / 3, -1]

end Coreax
