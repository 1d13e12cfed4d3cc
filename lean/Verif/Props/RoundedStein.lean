import Verif.Model.RoundedStein
import Verif.Props.RoundedHerding
import Verif.Props.SteinRegRate

/-!
# C113: Stein thinning with rounded arithmetic
-/

set_option linter.unusedSectionVars false

namespace Coreax

open Greedy Spec

/-- The bound of the error of a rounded operation whose operands give a value with error `e` and magnitude `M`. -/
noncomputable def Spec.opError (u e M : ℝ) : ℝ := e + u * (M + e)

/-- The bound of the error of a penalty after `i` additions of kernel values with error `ε` and magnitude `R`. -/
noncomputable def Spec.penaltyError (u ε R : ℝ) : ℕ → ℝ
  | 0 => 0
  | i + 1 => opError u (penaltyError u ε R i + ε) (((i : ℝ) + 1) * R)

/-- The bound of the error of an objective at step `i`. -/
noncomputable def Spec.objectiveError (u ε R Λ L : ℝ) (i : ℕ) : ℝ :=
  opError u (opError u (opError u (ε + opError u (2 * penaltyError u ε R i) (2 * (i * R))) (R + 2 * (i * R))) (R + 2 * (i * R) + Λ)
    + opError u 0 (((i : ℝ) + 1) * L)) (R + 2 * (i * R) + Λ + ((i : ℝ) + 1) * L)

/-- At every step the point chosen is allowed, and its exact objective is within `δ i` of the least one. -/
def Spec.NearlyStein {X : Type*} {n : ℕ} (k : X → X → ℝ) (x : Fin n → X) (w lap logp : Fin n → ℝ) (unique : Bool) (δ : ℕ → ℝ) {size : ℕ}
    (f : Fin size → Fin n) : Prop :=
  ∀ i : Fin size, 0 < w (f i) ∧ (unique = true → ∀ t, t < i → f t ≠ f i) ∧
    ∀ j, 0 < w j → (unique = true → ∀ t, t < i → f t ≠ j) →
      k (x (f i)) (x (f i)) + lap (f i) - ((i : ℕ) + 1 : ℝ) * logp (f i) + 2 * (∑ t, if t < i then k (x (f i)) (x (f t)) else 0)
        ≤ k (x j) (x j) + lap j - ((i : ℕ) + 1 : ℝ) * logp j + 2 * (∑ t, if t < i then k (x j) (x (f t)) else 0) + δ i

variable {u : ℝ} {o : FloatOps ℝ}

theorem opError_le (hu0 : 0 ≤ u) {v' v z e M : ℝ} (h1 : |z - v'| ≤ u * |v'|) (h2 : |v' - v| ≤ e) (h3 : |v| ≤ M) : |z - v| ≤ opError u e M := by
  have h4 : |v'| ≤ M + e := by
    have : |v'| ≤ |v' - v| + |v| := by
      have := abs_add_le (v' - v) v
      simpa using this
    linarith
  have h5 : |z - v| ≤ |z - v'| + |v' - v| := abs_sub_le _ _ _
  have h6 := mul_le_mul_of_nonneg_left h4 hu0
  unfold opError
  linarith

theorem add_err {a a' b b' e f : ℝ} (h1 : |a' - a| ≤ e) (h2 : |b' - b| ≤ f) : |a' + b' - (a + b)| ≤ e + f := by
  have : a' + b' - (a + b) = (a' - a) + (b' - b) := by ring
  rw [this]
  exact (abs_add_le _ _).trans (add_le_add h1 h2)

theorem sub_err {a a' b b' e f : ℝ} (h1 : |a' - a| ≤ e) (h2 : |b' - b| ≤ f) : |a' - b' - (a - b)| ≤ e + f := by
  have : a' - b' - (a - b) = (a' - a) - (b' - b) := by ring
  rw [this]
  exact (abs_sub _ _).trans (add_le_add h1 h2)

theorem add_mag {a b A B : ℝ} (h1 : |a| ≤ A) (h2 : |b| ≤ B) : |a + b| ≤ A + B := (abs_add_le _ _).trans (add_le_add h1 h2)

/-- The error of one objective. -/
theorem objective_error (hu0 : 0 ≤ u) (ho : Rounding u o) {ε R Λ L : ℝ} (i : ℕ) {d d' S p l q : ℝ} (hd : |d' - d| ≤ ε) (hdR : |d| ≤ R)
    (hp : |p - S| ≤ penaltyError u ε R i) (hS : |S| ≤ i * R) (hl : |l| ≤ Λ) (hq : |q| ≤ L) :
    |o.sub (o.add (o.add d' (o.mul o.two p)) l) (o.mul ((i : ℝ) + 1) q) - (d + 2 * S + l - ((i : ℝ) + 1) * q)| ≤ objectiveError u ε R Λ L i := by
  have h2S : |2 * S| ≤ 2 * (i * R) := by rw [abs_mul, abs_two]; linarith
  have e1 : |o.mul o.two p - 2 * S| ≤ opError u (2 * penaltyError u ε R i) (2 * (i * R)) := by
    rw [ho.two]
    refine opError_le hu0 (ho.mul 2 p) ?_ h2S
    rw [← mul_sub, abs_mul, abs_two]
    linarith
  have e2 := opError_le hu0 (ho.add d' (o.mul o.two p)) (add_err hd e1) (add_mag hdR h2S)
  have e3 := opError_le hu0 (ho.add (o.add d' (o.mul o.two p)) l) (e := opError u (ε + opError u (2 * penaltyError u ε R i) (2 * (i * R))) (R + 2 * (i * R)))
    (v := d + 2 * S + l) (by have := add_err e2 (show |l - l| ≤ 0 by simp); simpa using this) (add_mag (add_mag hdR h2S) hl)
  have hi : (0 : ℝ) ≤ (i : ℝ) + 1 := by positivity
  have hm : |((i : ℝ) + 1) * q| ≤ ((i : ℝ) + 1) * L := by
    rw [abs_mul, abs_of_nonneg hi]
    exact mul_le_mul_of_nonneg_left hq hi
  have e4 := opError_le hu0 (ho.mul ((i : ℝ) + 1) q) (e := 0) (v := ((i : ℝ) + 1) * q) (by simp) hm
  refine opError_le hu0 (ho.sub _ _) (sub_err e3 e4) ?_
  rw [sub_eq_add_neg]
  exact add_mag (add_mag (add_mag hdR h2S) hl) (by rwa [abs_neg])

theorem opError_nonneg (hu0 : 0 ≤ u) {e M : ℝ} (he : 0 ≤ e) (hM : 0 ≤ M) : 0 ≤ opError u e M := by unfold opError; positivity

theorem penaltyError_nonneg (hu0 : 0 ≤ u) {ε R : ℝ} (hε : 0 ≤ ε) (hR : 0 ≤ R) (i : ℕ) : 0 ≤ penaltyError u ε R i := by
  induction i with
  | zero => exact le_rfl
  | succ i ih => exact opError_nonneg hu0 (by linarith) (by positivity)

theorem objectiveError_nonneg (hu0 : 0 ≤ u) {ε R Λ L : ℝ} (hε : 0 ≤ ε) (hR : 0 ≤ R) (hΛ : 0 ≤ Λ) (hL : 0 ≤ L) {i : ℕ} : 0 ≤ objectiveError u ε R Λ L i := by
  have := penaltyError_nonneg hu0 hε hR i
  have a1 := opError_nonneg hu0 (e := 2 * penaltyError u ε R i) (M := 2 * (i * R)) (by linarith) (by positivity)
  have a2 := opError_nonneg hu0 (e := ε + opError u (2 * penaltyError u ε R i) (2 * (i * R))) (M := R + 2 * (i * R)) (by linarith) (by positivity)
  have a3 := opError_nonneg hu0 (M := R + 2 * (i * R) + Λ) a2 (by positivity)
  have a4 := opError_nonneg hu0 (e := 0) (M := ((i : ℝ) + 1) * L) le_rfl (by positivity)
  exact opError_nonneg hu0 (by linarith) (by positivity)

/-- C113: the size of the error of an objective: proportional to the error of the kernel and to the unit roundoff times the square of the step number. -/
theorem C113_error_size (hu0 : 0 ≤ u) {ε R Λ L : ℝ} (hε : 0 ≤ ε) (hR : 0 ≤ R) (hΛ : 0 ≤ Λ) (hL : 0 ≤ L) (i : ℕ) :
    objectiveError u ε R Λ L i ≤ (1 + u) ^ (i + 4) * ((2 * i + 1) * ε + u * ((i * (i + 1) + 8 * i + 3) * R + 2 * Λ + 2 * ((i : ℝ) + 1) * L)) := by
  have hb : 1 ≤ 1 + u := by linarith
  have hP : ∀ i : ℕ, penaltyError u ε R i ≤ (1 + u) ^ i * (i * ε + u * (i * ((i : ℝ) + 1) / 2 * R)) := by
    intro i
    induction i with
    | zero => simp [penaltyError]
    | succ i ih =>
      have h1 : 1 ≤ (1 + u) ^ (i + 1) := one_le_pow₀ hb
      have h2 : 1 + u ≤ (1 + u) ^ (i + 1) := le_self_pow₀ hb (by omega)
      have h3 := mul_le_mul_of_nonneg_left ih (by linarith : 0 ≤ 1 + u)
      have h4 := mul_le_mul_of_nonneg_right h2 hε
      have h5 := mul_le_mul_of_nonneg_right h1 (show 0 ≤ u * (((i : ℝ) + 1) * R) by positivity)
      have e : penaltyError u ε R (i + 1) = (1 + u) * penaltyError u ε R i + (1 + u) * ε + u * (((i : ℝ) + 1) * R) := by
        change opError u (penaltyError u ε R i + ε) (((i : ℝ) + 1) * R) = _
        unfold opError
        ring
      have e' : (1 + u) ^ (i + 1) * (((i + 1 : ℕ) : ℝ) * ε + u * (((i + 1 : ℕ) : ℝ) * (((i + 1 : ℕ) : ℝ) + 1) / 2 * R))
          = (1 + u) * ((1 + u) ^ i * (i * ε + u * (i * ((i : ℝ) + 1) / 2 * R))) + (1 + u) ^ (i + 1) * ε + (1 + u) ^ (i + 1) * (u * (((i : ℝ) + 1) * R)) := by
        push_cast
        ring
      rw [e, e']
      linarith
  have hP0 := penaltyError_nonneg hu0 hε hR i
  have hP' := hP i
  set P := penaltyError u ε R i with hPd
  set b := 1 + u with hbd
  have b1 : 1 ≤ b ^ 4 := one_le_pow₀ hb
  have b2 : b ≤ b ^ 4 := le_self_pow₀ hb (by norm_num)
  have b3 : b ^ 2 ≤ b ^ 4 := pow_le_pow_right₀ hb (by norm_num)
  have b4 : b ^ 3 ≤ b ^ 4 := pow_le_pow_right₀ hb (by norm_num)
  have t1 := mul_le_mul_of_nonneg_right b4 hε
  have t2 := mul_le_mul_of_nonneg_right b4 (show 0 ≤ u * (2 * (i * R)) by positivity)
  have t3 := mul_le_mul_of_nonneg_right b3 (show 0 ≤ u * (R + 2 * (i * R)) by positivity)
  have t4 := mul_le_mul_of_nonneg_right b2 (show 0 ≤ u * (R + 2 * (i * R) + Λ) by positivity)
  have t5 := mul_le_mul_of_nonneg_right b2 (show 0 ≤ u * (((i : ℝ) + 1) * L) by positivity)
  have t6 := mul_le_mul_of_nonneg_right b1 (show 0 ≤ u * (R + 2 * (i * R) + Λ + ((i : ℝ) + 1) * L) by positivity)
  have e : objectiveError u ε R Λ L i = b ^ 4 * (2 * P) + b ^ 3 * ε + b ^ 3 * (u * (2 * (i * R))) + b ^ 2 * (u * (R + 2 * (i * R)))
      + b * (u * (R + 2 * (i * R) + Λ)) + b * (u * (((i : ℝ) + 1) * L)) + 1 * (u * (R + 2 * (i * R) + Λ + ((i : ℝ) + 1) * L)) := by
    unfold objectiveError opError
    rw [← hPd, hbd]
    ring
  have h7 : objectiveError u ε R Λ L i ≤ b ^ 4 * (2 * P + ε + u * ((8 * i + 3) * R + 2 * Λ + 2 * ((i : ℝ) + 1) * L)) := by
    rw [e]
    linarith
  have hi1 : 1 ≤ b ^ i := one_le_pow₀ hb
  have h8 := mul_le_mul_of_nonneg_right hi1 (show 0 ≤ ε + u * ((8 * i + 3) * R + 2 * Λ + 2 * ((i : ℝ) + 1) * L) by positivity)
  refine h7.trans ?_
  have hb4 : 0 ≤ b ^ 4 := by linarith
  have e9 : b ^ (i + 4) * ((2 * i + 1) * ε + u * ((i * (i + 1) + 8 * i + 3) * R + 2 * Λ + 2 * ((i : ℝ) + 1) * L))
      = b ^ 4 * (2 * (b ^ i * (i * ε + u * (i * ((i : ℝ) + 1) / 2 * R))) + b ^ i * (ε + u * ((8 * i + 3) * R + 2 * Λ + 2 * ((i : ℝ) + 1) * L))) := by
    ring
  rw [e9]
  exact mul_le_mul_of_nonneg_left (by linarith) hb4

example := C113_error_size (u := (1 / 2) ^ 24) (by norm_num) (ε := 1 / 1000000) (R := 5) (Λ := 2) (L := 3) (by norm_num) (by norm_num) (by norm_num) (by norm_num) 100

section
variable {X : Type*} [Zero X] {n : ℕ} [NeZero n]

/-- The exact objective. -/
noncomputable def Rate.steinFull (k : X → X → ℝ) (x : Fin n → X) (lap logp : Fin n → ℝ) (g : ℕ → Fin n) (i : ℕ) (j : Fin n) : ℝ :=
  Rate.steinObj k x g i j + Rate.steinPen lap logp i j

/-- The state of the loop after `i` steps. -/
structure SteinInv (u ε R : ℝ) (k : X → X → ℝ) (x : Fin n → X) (w lap logp : Fin n → ℝ) (unique : Bool) (δ : ℕ → ℝ) {m : ℕ} (i : ℕ)
    (s : GreedyState n m ℝ) (g : ℕ → Fin n) : Prop where
  idx : ∀ t : Fin m, (t : ℕ) < i → s.idx t = ((g t : Fin n) : ℤ)
  chosen : ∀ j, (unique = true ∧ ∃ t < i, g t = j) → s.pen j = Ext.pinf
  other : ∀ j, ¬ (unique = true ∧ ∃ t < i, g t = j) → ∃ p, s.pen j = Ext.fin p ∧ |p - ∑ t ∈ Finset.range i, k (x j) (x (g t))| ≤ penaltyError u ε R i
  step : ∀ t < i, 0 < w (g t) ∧ (unique = true → ∀ r < t, g r ≠ g t) ∧
    ∀ j, 0 < w j → (unique = true → ∀ r < t, g r ≠ j) → Rate.steinFull k x lap logp g t (g t) ≤ Rate.steinFull k x lap logp g t j + δ t

theorem steinFull_congr (k : X → X → ℝ) (x : Fin n → X) (lap logp : Fin n → ℝ) {g g' : ℕ → Fin n} (t : ℕ) (h : ∀ r < t, g r = g' r) (j : Fin n) :
    Rate.steinFull k x lap logp g t j = Rate.steinFull k x lap logp g' t j := by
  unfold Rate.steinFull Rate.steinObj
  congr 3
  exact Finset.sum_congr rfl fun r hr => by rw [h r (Finset.mem_range.1 hr)]

theorem steinInv_step (hu0 : 0 ≤ u) (ho : Rounding u o) (k k' : X → X → ℝ) (x : Fin n → X) (diag w lap logp : Fin n → ℝ) {ε R Λ L : ℝ}
    (hk : ∀ i j, |k' (x i) (x j) - k (x i) (x j)| ≤ ε) (hdiag : ∀ j, |diag j - k (x j) (x j)| ≤ ε) (hR : ∀ i j, |k (x i) (x j)| ≤ R)
    (hl : ∀ j, |lap j| ≤ Λ) (hq : ∀ j, |logp j| ≤ L) (unique : Bool) {m : ℕ}
    (hen : if unique then PosCount w m else ∃ j, 0 < w j) (ord : List (Fin m)) (i : Fin m) (s : GreedyState n m ℝ) (g : ℕ → Fin n)
    (h : SteinInv u ε R k x w lap logp unique (fun t => 2 * objectiveError u ε R Λ L t) i s g) :
    ∃ g', SteinInv u ε R k x w lap logp unique (fun t => 2 * objectiveError u ε R Λ L t) (i + 1) (flSteinBody o k' diag lap logp x w unique ord i s) g' := by
  classical
  set mp := maskedPenalty w unique ord (fun _ => (0 : ℝ)) i s.idx s.pen with hmp
  have hmpj : ∀ j, mp j = if 0 < w j then s.pen j else Ext.nan := fun j => by rw [hmp, maskedPenalty_fresh]
  set res := flSteinObjective o diag lap logp i mp with hres
  have hSR : ∀ N : ℕ, ∀ j, |∑ t ∈ Finset.range N, k (x j) (x (g t))| ≤ N * R := by
    intro N j
    refine (Finset.abs_sum_le_sum_abs _ _).trans ?_
    have := Finset.sum_le_card_nsmul (Finset.range N) (fun t => |k (x j) (x (g t))|) R (fun t _ => hR _ _)
    simpa using this
  have hfin : ∀ j, 0 < w j → (unique = true → ∀ t < (i : ℕ), g t ≠ j) → ∃ v, res j = Ext.fin v ∧
      |v - Rate.steinFull k x lap logp g i j| ≤ objectiveError u ε R Λ L i := by
    intro j hj hju
    obtain ⟨p, hp1, hp2⟩ := h.other j (by rintro ⟨h1, t, ht, h2⟩; exact hju h1 t ht h2)
    refine ⟨o.sub (o.add (o.add (diag j) (o.mul o.two p)) (lap j)) (o.mul (((i : ℕ) : ℝ) + 1) (logp j)), ?_, ?_⟩
    · rw [hres]
      simp only [flSteinObjective, hmpj, if_pos hj, hp1, flExt]
    · have := objective_error hu0 ho i (hdiag j) (hR j j) hp2 (hSR i j) (hl j) (hq j)
      have e : Rate.steinFull k x lap logp g i j
          = k (x j) (x j) + 2 * (∑ t ∈ Finset.range i, k (x j) (x (g t))) + lap j - (((i : ℕ) : ℝ) + 1) * logp j := by
        unfold Rate.steinFull Rate.steinObj Rate.steinPen
        ring
      rw [e]
      exact this
  have hinf : ∀ j, 0 < w j → (unique = true ∧ ∃ t < (i : ℕ), g t = j) → res j = Ext.pinf := by
    intro j hj hju
    rw [hres]
    simp only [flSteinObjective, hmpj, if_pos hj, h.chosen j hju, flExt]
    have e : (Ext.fin o.two : Ext ℝ) * Ext.pinf = Ext.pinf := by
      rw [ho.two]
      change Ext.mul _ _ = _
      simp [Ext.mul, Ext.signMul]
    rw [e]
    rfl
  have hnan : ∀ j, ¬ 0 < w j → res j = Ext.nan := by
    intro j hj
    rw [hres]
    simp only [flSteinObjective, hmpj, if_neg hj, flExt]
    rfl
  have hnot : ∀ j v, res j = Ext.fin v → 0 < w j ∧ (unique = true → ∀ t < (i : ℕ), g t ≠ j) := by
    intro j v hv
    have hwj : 0 < w j := by
      by_contra hc
      rw [hnan j hc] at hv
      cases hv
    refine ⟨hwj, fun hun t ht hgt => ?_⟩
    rw [hinf j hwj ⟨hun, t, ht, hgt⟩] at hv
    cases hv
  have hninf : ∀ j, res j ≠ Ext.ninf := by
    intro j hv
    by_cases hj : 0 < w j
    · by_cases hju : unique = true ∧ ∃ t < (i : ℕ), g t = j
      · rw [hinf j hj hju] at hv
        cases hv
      · obtain ⟨v, hv', -⟩ := hfin j hj (fun hun t ht hgt => hju ⟨hun, t, ht, hgt⟩)
        rw [hv] at hv'
        cases hv'
    · rw [hnan j hj] at hv
      cases hv
  have hex : ∃ j v, res j = Ext.fin v := by
    have : ∃ j, 0 < w j ∧ (unique = true → ∀ t < (i : ℕ), g t ≠ j) := by
      cases unique with
      | false => obtain ⟨j, hj⟩ := (by simpa using hen : ∃ j, 0 < w j); exact ⟨j, hj, by simp⟩
      | true =>
        have hen' : PosCount w m := by simpa using hen
        by_contra hc
        push Not at hc
        have hsub : Finset.univ.filter (fun j => 0 < w j) ⊆ (Finset.range i).image g := by
          intro j hj
          obtain ⟨-, t, ht, hgt⟩ := hc j (Finset.mem_filter.1 hj).2
          exact Finset.mem_image.2 ⟨t, Finset.mem_range.2 ht, hgt⟩
        have h1 := Finset.card_le_card hsub
        have h2 : ((Finset.range (i : ℕ)).image g).card ≤ i := by simpa using Finset.card_image_le (s := Finset.range (i : ℕ)) (f := g)
        have h3 : m ≤ (Finset.univ.filter (fun j => 0 < w j)).card := hen'
        have := i.2
        omega
    obtain ⟨j, hj, hju⟩ := this
    obtain ⟨v, hv, -⟩ := hfin j hj hju
    exact ⟨j, v, hv⟩
  obtain ⟨a, va, hnew, hva, hmin⟩ := nanargmin_spec res hninf hex
  obtain ⟨hwa, hau⟩ := hnot a va hva
  refine ⟨Function.update g i a, ?_⟩
  have hg : ∀ t < (i : ℕ), Function.update g i a t = g t := fun t ht => Function.update_of_ne ht.ne _ _
  have hgi : Function.update g (i : ℕ) a i = a := Function.update_self _ _ _
  have hcg : ∀ t ≤ (i : ℕ), ∀ j, Rate.steinFull k x lap logp (Function.update g i a) t j = Rate.steinFull k x lap logp g t j :=
    fun t ht j => steinFull_congr k x lap logp t (fun r hr => hg r (hr.trans_le ht)) j
  have hbody : flSteinBody o k' diag lap logp x w unique ord i s
      = { idx := Function.update s.idx i (a : ℤ),
          pen := if unique then Function.update (fun j => flExt o.add (· + ·) (s.pen j) (Ext.fin (k' (x j) (x a)))) a Ext.pinf
            else fun j => flExt o.add (· + ·) (s.pen j) (Ext.fin (k' (x j) (x a))),
          size := s.size + 1 } := by
    simp only [flSteinBody, ← hmp, ← hres, hnew, kernelColumn, gatherIdx_coe, setAt_coe]
  rw [hbody]
  refine ⟨fun t ht => ?_, fun j hj => ?_, fun j hj => ?_, fun t ht => ?_⟩
  · rcases Nat.lt_succ_iff_lt_or_eq.1 ht with ht' | ht'
    · simp only
      rw [Function.update_of_ne (fun h' => by rw [h'] at ht'; exact lt_irrefl _ ht'), hg _ ht']
      exact h.idx t ht'
    · have : t = i := Fin.ext ht'
      subst this
      simp only [Function.update_self]
  · obtain ⟨hun, t, ht, hgt⟩ := hj
    simp only [hun, if_true]
    by_cases hja : j = a
    · subst hja; exact Function.update_self _ _ _
    · rw [Function.update_of_ne hja]
      have ht' : t < (i : ℕ) := by
        rcases Nat.lt_succ_iff_lt_or_eq.1 ht with h' | h'
        · exact h'
        · exfalso; rw [h', hgi] at hgt; exact hja hgt.symm
      rw [hg t ht'] at hgt
      rw [h.chosen j ⟨hun, t, ht', hgt⟩]
      rfl
  · have hj' : ¬ (unique = true ∧ ∃ t < (i : ℕ), g t = j) := by
      rintro ⟨hun, t, ht, hgt⟩
      exact hj ⟨hun, t, by omega, by rw [hg t ht]; exact hgt⟩
    obtain ⟨p, hp1, hp2⟩ := h.other j hj'
    refine ⟨o.add p (k' (x j) (x a)), ?_, ?_⟩
    · have e : flExt o.add (· + ·) (s.pen j) (Ext.fin (k' (x j) (x a))) = Ext.fin (o.add p (k' (x j) (x a))) := by rw [hp1]; rfl
      simp only
      split_ifs with hun
      · rw [Function.update_of_ne (fun hja => hj ⟨hun, i, by omega, by rw [hgi, hja]⟩), e]
      · exact e
    · rw [Finset.sum_range_succ, hgi, Finset.sum_congr rfl fun r hr => by rw [hg r (Finset.mem_range.1 hr)]]
      refine opError_le hu0 (ho.add _ _) (add_err hp2 (hk _ _)) ?_
      have := add_mag (hSR i j) (hR j a)
      rwa [show ((i : ℕ) : ℝ) * R + R = (((i : ℕ) : ℝ) + 1) * R by ring] at this
  · rcases Nat.lt_succ_iff_lt_or_eq.1 ht with ht' | ht'
    · obtain ⟨h1, h2, h3⟩ := h.step t ht'
      rw [hg t ht']
      refine ⟨h1, fun hun r hr => by rw [hg r (hr.trans ht')]; exact h2 hun r hr, fun j hj hju => ?_⟩
      rw [hcg t ht'.le, hcg t ht'.le]
      exact h3 j hj fun hun r hr => by have := hju hun r hr; rwa [hg r (hr.trans ht')] at this
    · subst ht'
      rw [hgi]
      refine ⟨hwa, fun hun r hr => by rw [hg r hr]; exact hau hun r hr, fun j hj hju => ?_⟩
      rw [hcg _ le_rfl, hcg _ le_rfl]
      have hju' : unique = true → ∀ t < (i : ℕ), g t ≠ j := fun hun r hr => by have := hju hun r hr; rwa [hg r hr] at this
      obtain ⟨v, hv, hverr⟩ := hfin j hj hju'
      obtain ⟨v', hv', hverr'⟩ := hfin a hwa hau
      rw [hva] at hv'
      cases hv'
      have := (hmin j v hv).1
      have e1 := (abs_le.1 hverr).2
      have e2 := (abs_le.1 hverr').1
      linarith

/-- C113: Stein thinning with every operation rounded is nearly greedy.  The kernel may take both signs; its computed values are within `ε`.  The exact
objective of the point chosen at step `i` is within twice `objectiveError` of the least one. -/
theorem C113_nearly_greedy (hu0 : 0 ≤ u) (ho : Rounding u o) (k k' : X → X → ℝ) (pre : Data n X ℝ) (diag lap logp : Fin n → ℝ) {ε R Λ L : ℝ}
    (hk : ∀ i j, |k' (pre.data i) (pre.data j) - k (pre.data i) (pre.data j)| ≤ ε) (hdiag : ∀ j, |diag j - k (pre.data j) (pre.data j)| ≤ ε)
    (hR : ∀ i j, |k (pre.data i) (pre.data j)| ≤ R) (hl : ∀ j, |lap j| ≤ Λ) (hq : ∀ j, |logp j| ≤ L) (unique : Bool) (size : ℕ) (hle : size ≤ n)
    (hen : if unique then PosCount pre.weights size else ∃ j, 0 < pre.weights j) (ord : List (Fin size)) :
    ∃ f : Fin size → Fin n, flSteinReduce o k' diag lap logp unique size pre ord = .ok ⟨fun t => (f t : ℤ), fun _ => 1⟩ ∧
      NearlyStein k pre.data pre.weights lap logp unique (fun i => 2 * objectiveError u ε R Λ L i) f := by
  set δ : ℕ → ℝ := fun i => 2 * objectiveError u ε R Λ L i with hδ
  have h0 : ∃ g, SteinInv u ε R k pre.data pre.weights lap logp unique δ 0 (⟨fun _ => 0, fun _ => .fin o.zero, 0⟩ : GreedyState n size ℝ) g := by
    refine ⟨fun _ => 0, fun t ht => absurd ht (by omega), ?_, ?_, fun t ht => absurd ht (by omega)⟩
    · rintro j ⟨-, t, ht, -⟩; omega
    · intro j _
      refine ⟨o.zero, rfl, ?_⟩
      rw [ho.zero]
      simp [penaltyError]
  obtain ⟨g, hg⟩ := forLoop_inv (P := fun i (s : GreedyState n size ℝ) => ∃ g, SteinInv u ε R k pre.data pre.weights lap logp unique δ i s g) size
    (flSteinBody o k' diag lap logp pre.data pre.weights unique ord) _ h0
    (fun i s ⟨g, hg⟩ => steinInv_step hu0 ho k k' pre.data diag pre.weights lap logp hk hdiag hR hl hq unique hen ord i s g hg)
  refine ⟨fun t => g t, ?_, fun i => ?_⟩
  · unfold flSteinReduce
    rw [if_neg (by omega)]
    simp only
    congr 2
    funext t
    exact hg.idx t t.2
  · obtain ⟨h1, h2, h3⟩ := hg.step i i.2
    have hs : ∀ j, (∑ t : Fin size, if t < i then k (pre.data j) (pre.data (g t)) else 0) = ∑ r ∈ Finset.range i, k (pre.data j) (pre.data (g r)) := by
      intro j
      rw [sum_castLE i.2.le, Finset.sum_range]
      · refine Finset.sum_congr rfl fun t _ => ?_
        rw [if_pos (by rw [Fin.lt_def]; exact t.2)]
        rfl
      · intro t ht
        rw [if_neg (by rw [Fin.lt_def]; simpa using ht)]
    refine ⟨h1, fun hun t ht => h2 hun t ht, fun j hj hju => ?_⟩
    rw [hs, hs]
    have := h3 j hj fun hun r hr => hju hun ⟨r, hr.trans i.2⟩ hr
    unfold Rate.steinFull Rate.steinObj Rate.steinPen at this
    linarith

/-- C113: sizes greater than the data set are rejected. -/
theorem C113_too_large (o : FloatOps ℝ) (k : X → X → ℝ) (diag lap logp : Fin n → ℝ) (unique : Bool) (size : ℕ) (hle : n < size) (pre : Data n X ℝ)
    (ord : List (Fin size)) : flSteinReduce o k diag lap logp unique size pre ord = .error .valueError := by
  unfold flSteinReduce
  rw [if_pos hle]

theorem NearlyStein.full_le {k : X → X → ℝ} {x : Fin n → X} {w lap logp : Fin n → ℝ} {unique : Bool} {δ : ℕ → ℝ} {size : ℕ} {f : Fin size → Fin n}
    (h : NearlyStein k x w lap logp unique δ f) (i : ℕ) (hi : i < size) :
    0 < w (Rate.seq f i) ∧ (unique = true → ∀ t < i, Rate.seq f t ≠ Rate.seq f i) ∧
      ∀ j, 0 < w j → (unique = true → ∀ t < i, Rate.seq f t ≠ j) →
        Rate.steinFull k x lap logp (Rate.seq f) i (Rate.seq f i) ≤ Rate.steinFull k x lap logp (Rate.seq f) i j + δ i := by
  obtain ⟨h1, h2, h3⟩ := h ⟨i, hi⟩
  have e : Rate.seq f i = f ⟨i, hi⟩ := Rate.seq_fin f ⟨i, hi⟩
  refine ⟨by rw [e]; exact h1, fun hu t ht => ?_, fun j hj hju => ?_⟩
  · rw [e, Rate.seq_fin f ⟨t, ht.trans hi⟩]
    exact h2 hu _ ht
  · have h4 := h3 j hj (fun hu t ht => by
      have := hju hu t ht
      rwa [Rate.seq_fin] at this)
    have hs : ∀ l, (∑ t : Fin size, if t < ⟨i, hi⟩ then k (x l) (x (f t)) else 0)
        = ∑ t ∈ Finset.range i, k (x l) (x (Rate.seq f t)) := by
      intro l
      rw [sum_castLE hi.le, Finset.sum_range]
      · refine Finset.sum_congr rfl fun t _ => ?_
        rw [if_pos (by rw [Fin.lt_def]; exact t.2), ← Rate.seq_fin f (t.castLE hi.le)]
        rfl
      · intro t ht
        rw [if_neg (by rw [Fin.lt_def]; simpa using ht)]
    rw [hs, hs] at h4
    unfold Rate.steinFull Rate.steinObj Rate.steinPen
    rw [e]
    simp only at h4
    linarith

/-- C113, repeated points allowed: the rate of C112 with the mean of the errors of the objectives added. -/
theorem C113_rate (hu0 : 0 ≤ u) (ho : Rounding u o) (k k' : X → X → ℝ) (hsymm : ∀ a b, k a b = k b a) (pre : Data n X ℝ)
    (hpsd : ∀ c : Fin n → ℝ, 0 ≤ ∑ i, ∑ j, c i * c j * k (pre.data i) (pre.data j)) (diag lap logp : Fin n → ℝ) {ε R Λ L : ℝ}
    (hk : ∀ i j, |k' (pre.data i) (pre.data j) - k (pre.data i) (pre.data j)| ≤ ε) (hdiag : ∀ j, |diag j - k (pre.data j) (pre.data j)| ≤ ε)
    (hR : ∀ i j, |k (pre.data i) (pre.data j)| ≤ R) (hl0 : ∀ j, 0 ≤ lap j) (hl : ∀ j, lap j ≤ Λ) (hq : ∀ j, |logp j| ≤ L)
    (size : ℕ) (hsize : 0 < size) (hle : size ≤ n) (hpos : ∃ j, 0 < pre.weights j) (ord : List (Fin size)) :
    ∃ f : Fin size → Fin n, flSteinReduce o k' diag lap logp false size pre ord = .ok ⟨fun t => (f t : ℤ), fun _ => 1⟩ ∧
      ∀ v : Fin n → ℝ, (∀ j, 0 ≤ v j) → 0 < ∑ j, v j → (∀ j, 0 < v j → 0 < pre.weights j) →
        ksd k (fun t => pre.data (f t)) (fun _ => 1)
          ≤ ksd k pre.data v + Real.sqrt ((R + Λ + L * (size + 1) + (∑ i ∈ Finset.range size, 2 * objectiveError u ε R Λ L i) / size) / size) := by
  have hε : 0 ≤ ε := (abs_nonneg _).trans (hk 0 0)
  have hR0 : 0 ≤ R := (abs_nonneg _).trans (hR 0 0)
  have hΛ0 : 0 ≤ Λ := (hl0 0).trans (hl 0)
  have hL0 : 0 ≤ L := (abs_nonneg _).trans (hq 0)
  have hoe := fun i => objectiveError_nonneg (i := i) hu0 hε hR0 hΛ0 hL0
  obtain ⟨f, h1, h2⟩ := C113_nearly_greedy hu0 ho k k' pre diag lap logp hk hdiag hR
    (fun j => by rw [abs_of_nonneg (hl0 j)]; exact hl j) hq false size hle (by simpa using hpos) ord
  refine ⟨f, h1, fun v hv hV hvw => ?_⟩
  set δ : ℕ → ℝ := fun i => 2 * objectiveError u ε R Λ L i with hδ
  have hδ0 : ∀ i, 0 ≤ δ i := fun i => mul_nonneg zero_le_two (hoe i)
  have hrun := fun i hi => NearlyStein.full_le h2 i hi
  set g := Rate.seq f with hg
  have hs : (0 : ℝ) < size := by positivity
  have := Rate.sumPair_le_slack k hsymm pre.data hpsd pre.weights v hv hV hvw g size
    (fun i j => Rate.steinPen lap logp i j - if j = g i then δ i else 0)
    (fun i => R + Λ + 2 * L * ((i : ℝ) + 1) + δ i) (fun i => by have := hδ0 i; positivity)
    (fun i hi j hj => by
      have h3 := (hrun i hi).2.2 j hj (by simp)
      unfold Rate.steinFull at h3
      simp only [if_true]
      split_ifs with hji
      · rw [hji]
      · linarith)
    (fun i hi => by
      have e1 := Rate.avg_le v hv hV (fun j => k (pre.data j) (pre.data j)) R (fun j _ => (le_abs_self _).trans (hR j j))
      have e2 := Rate.avg_le v hv hV (fun j => Rate.steinPen lap logp i j - if j = g i then δ i else 0) (Λ + ((i : ℝ) + 1) * L) (fun j _ => by
        have b1 := hl j
        have b2 := (abs_le.1 (hq j)).1
        have b3 : ((i : ℝ) + 1) * (-L) ≤ ((i : ℝ) + 1) * logp j := mul_le_mul_of_nonneg_left b2 (by positivity)
        have b4 : (0 : ℝ) ≤ if j = g i then δ i else 0 := by split_ifs; exacts [hδ0 i, le_rfl]
        unfold Rate.steinPen
        linarith)
      have e3 : -(((i : ℝ) + 1) * L) ≤ Rate.steinPen lap logp i (g i) := by
        have b1 := hl0 (g i)
        have b2 := (abs_le.1 (hq (g i))).2
        have b3 : ((i : ℝ) + 1) * logp (g i) ≤ ((i : ℝ) + 1) * L := mul_le_mul_of_nonneg_left b2 (by positivity)
        unfold Rate.steinPen
        linarith
      simp only [if_true]
      linarith) size le_rfl
  rw [Finset.sum_add_distrib, Rate.sum_stein_slack] at this
  have e : (R + Λ + 2 * L * ((size : ℝ) + 1) / 2) * size + ∑ i ∈ Finset.range size, δ i
      = (R + Λ + L * (size + 1) + (∑ i ∈ Finset.range size, δ i) / size) * size := by
    field_simp
  rw [e] at this
  have hsum : 0 ≤ ∑ i ∈ Finset.range size, δ i := Finset.sum_nonneg fun i _ => hδ0 i
  exact Rate.ksd_le hsize f (Real.sqrt_nonneg _) (by positivity) this

/-- C113, distinct points (the default) on equally weighted rows. -/
theorem C113_rate_unique (hu0 : 0 ≤ u) (ho : Rounding u o) (k k' : X → X → ℝ) (hsymm : ∀ a b, k a b = k b a) (pre : Data n X ℝ)
    (hpsd : ∀ c : Fin n → ℝ, 0 ≤ ∑ i, ∑ j, c i * c j * k (pre.data i) (pre.data j)) (huw : UniformWeights pre.weights)
    (diag lap logp : Fin n → ℝ) {ε R Λ L : ℝ}
    (hk : ∀ i j, |k' (pre.data i) (pre.data j) - k (pre.data i) (pre.data j)| ≤ ε) (hdiag : ∀ j, |diag j - k (pre.data j) (pre.data j)| ≤ ε)
    (hR : ∀ i j, |k (pre.data i) (pre.data j)| ≤ R) (hl0 : ∀ j, 0 ≤ lap j) (hl : ∀ j, lap j ≤ Λ) (hq : ∀ j, |logp j| ≤ L)
    (size : ℕ) (hsize : 0 < size) (hpos : PosCount pre.weights size) (ord : List (Fin size)) :
    ∃ f : Fin size → Fin n, flSteinReduce o k' diag lap logp true size pre ord = .ok ⟨fun t => (f t : ℤ), fun _ => 1⟩ ∧ Function.Injective f ∧
      ksd k (fun t => pre.data (f t)) (fun _ => 1)
        ≤ ksd k pre.data pre.weights + Real.sqrt ((R + Λ + L * (size + 1) + (∑ i ∈ Finset.range size, 2 * objectiveError u ε R Λ L i) / size) / size) := by
  have hle : size ≤ n := by
    refine hpos.trans ?_
    simpa using Finset.card_le_univ (Finset.univ.filter (fun j => 0 < pre.weights j))
  have hε : 0 ≤ ε := (abs_nonneg _).trans (hk 0 0)
  have hR0 : 0 ≤ R := (abs_nonneg _).trans (hR 0 0)
  have hΛ0 : 0 ≤ Λ := (hl0 0).trans (hl 0)
  have hL0 : 0 ≤ L := (abs_nonneg _).trans (hq 0)
  have hoe := fun i => objectiveError_nonneg (i := i) hu0 hε hR0 hΛ0 hL0
  obtain ⟨f, h1, h2⟩ := C113_nearly_greedy hu0 ho k k' pre diag lap logp hk hdiag hR
    (fun j => by rw [abs_of_nonneg (hl0 j)]; exact hl j) hq true size hle (by simpa using hpos) ord
  refine ⟨f, h1, ?_, ?_⟩
  · intro a b hab
    rcases lt_trichotomy a b with hlt | heq | hlt
    · exact absurd hab ((h2 b).2.1 rfl a hlt)
    · exact heq
    · exact absurd hab.symm ((h2 a).2.1 rfl b hlt)
  obtain ⟨c, hc0, hc⟩ := huw
  set δ : ℕ → ℝ := fun i => 2 * objectiveError u ε R Λ L i with hδ
  have hδ0 : ∀ i, 0 ≤ δ i := fun i => mul_nonneg zero_le_two (hoe i)
  have hrun := fun i hi => NearlyStein.full_le h2 i hi
  set g := Rate.seq f with hg
  have hs : (0 : ℝ) < size := by positivity
  have := Rate.sumPair_le_unique_slack k hsymm pre.data hpsd pre.weights c hc0 hc g size
    (fun i j => Rate.steinPen lap logp i j - if j = g i then δ i else 0)
    (fun i => R + Λ + 2 * L * ((i : ℝ) + 1) + δ i) (fun i => by have := hδ0 i; positivity)
    (fun i hi => (hrun i hi).1) (fun i hi => (hrun i hi).2.1 rfl)
    (fun i hi j hj hju => by
      have h3 := (hrun i hi).2.2 j hj (fun _ => hju)
      unfold Rate.steinFull at h3
      simp only [if_true]
      split_ifs with hji
      · rw [hji]
      · linarith)
    (fun i hi j hj => by
      have e1 := (le_abs_self _).trans (hR j j)
      have b1 := hl j
      have b2 := (abs_le.1 (hq j)).1
      have b3 : ((i : ℝ) + 1) * (-L) ≤ ((i : ℝ) + 1) * logp j := mul_le_mul_of_nonneg_left b2 (by positivity)
      have b4 : (0 : ℝ) ≤ if j = g i then δ i else 0 := by split_ifs; exacts [hδ0 i, le_rfl]
      have c1 := hl0 (g i)
      have c2 := (abs_le.1 (hq (g i))).2
      have c3 : ((i : ℝ) + 1) * logp (g i) ≤ ((i : ℝ) + 1) * L := mul_le_mul_of_nonneg_left c2 (by positivity)
      simp only [if_true]
      unfold Rate.steinPen
      linarith) size le_rfl
  rw [Finset.sum_add_distrib, Rate.sum_stein_slack] at this
  have e : (R + Λ + 2 * L * ((size : ℝ) + 1) / 2) * size + ∑ i ∈ Finset.range size, δ i
      = (R + Λ + L * (size + 1) + (∑ i ∈ Finset.range size, δ i) / size) * size := by
    field_simp
  rw [e] at this
  have hsum : 0 ≤ ∑ i ∈ Finset.range size, δ i := Finset.sum_nonneg fun i _ => hδ0 i
  exact Rate.ksd_le hsize f (Real.sqrt_nonneg _) (by positivity) this

/-- C113: if at every step of exact Stein thinning the point chosen beats all other allowed points by more than twice the error of an objective, rounded
Stein thinning chooses the same points. -/
theorem C113_same_points (hu0 : 0 ≤ u) (ho : Rounding u o) (k k' : X → X → ℝ) (pre : Data n X ℝ) (diag lap logp : Fin n → ℝ) {ε R Λ L : ℝ}
    (hk : ∀ i j, |k' (pre.data i) (pre.data j) - k (pre.data i) (pre.data j)| ≤ ε) (hdiag : ∀ j, |diag j - k (pre.data j) (pre.data j)| ≤ ε)
    (hR : ∀ i j, |k (pre.data i) (pre.data j)| ≤ R) (hl : ∀ j, |lap j| ≤ Λ) (hq : ∀ j, |logp j| ≤ L) (unique : Bool) (size : ℕ) (hle : size ≤ n)
    (hen : if unique then PosCount pre.weights size else ∃ j, 0 < pre.weights j) (ord : List (Fin size))
    (f : Fin size → Fin n) (hf : ∀ i, 0 < pre.weights (f i) ∧ (unique = true → ∀ t, t < i → f t ≠ f i))
    (hgap : ∀ i j, 0 < pre.weights j → (unique = true → ∀ t, t < i → f t ≠ j) → j ≠ f i →
      k (pre.data (f i)) (pre.data (f i)) + lap (f i) - ((i : ℕ) + 1 : ℝ) * logp (f i)
          + 2 * (∑ t, if t < i then k (pre.data (f i)) (pre.data (f t)) else 0) + 2 * objectiveError u ε R Λ L i
        < k (pre.data j) (pre.data j) + lap j - ((i : ℕ) + 1 : ℝ) * logp j + 2 * (∑ t, if t < i then k (pre.data j) (pre.data (f t)) else 0)) :
    flSteinReduce o k' diag lap logp unique size pre ord = .ok ⟨fun t => (f t : ℤ), fun _ => 1⟩ := by
  obtain ⟨g, h1, h2⟩ := C113_nearly_greedy hu0 ho k k' pre diag lap logp hk hdiag hR hl hq unique size hle hen ord
  have key : ∀ i, g i = f i := by
    intro i
    induction i using WellFoundedLT.induction with
    | ind i ih =>
      obtain ⟨a1, a2, a3⟩ := h2 i
      by_contra hne
      have hs : ∀ j, (∑ t, if t < i then k (pre.data j) (pre.data (g t)) else 0) = ∑ t, if t < i then k (pre.data j) (pre.data (f t)) else 0 :=
        fun j => Finset.sum_congr rfl fun t _ => by
          split_ifs with ht
          · rw [ih t ht]
          · rfl
      have b1 := hgap i (g i) a1 (fun hun t ht => by rw [← ih t ht]; exact a2 hun t ht) hne
      have b2 := a3 (f i) (hf i).1 (fun hun t ht => by rw [ih t ht]; exact (hf i).2 hun t ht)
      rw [hs, hs] at b2
      linarith
  rw [h1]
  congr 2
  funext t
  rw [key t]

end

namespace RoundedSteinExample

/-- Three rows of the real line, a kernel with both signs, regularised. -/
def data : Data 3 ℝ ℝ := ⟨![1, 2, -3], fun _ => 1⟩

theorem bound : ∀ i j, |1 + data.data i * data.data j| ≤ 17 := by
  intro i j
  fin_cases i <;> fin_cases j <;> norm_num [data, abs_le]

theorem enough (unique : Bool) : if unique then PosCount data.weights 2 else ∃ j, 0 < data.weights j := by
  cases unique <;> simp [data, PosCount]

/-- Single precision, kernel values computed with an error of a thousandth. -/
example (unique : Bool) := C113_nearly_greedy (u := (1 / 2) ^ 24) (by norm_num) (roundedOps_rounding fun a => binaryRound_error 23 a)
  (fun a b : ℝ => 1 + a * b) (fun a b => 1 + a * b + 1 / 1000) data (fun j => 1 + data.data j * data.data j) ![0, 1, 2] ![-1, -2, -3]
  (ε := 1 / 1000) (R := 17) (Λ := 2) (L := 3) (fun i j => by rw [add_sub_cancel_left]; norm_num) (fun j => by simp) bound
  (by intro j; fin_cases j <;> norm_num) (by intro j; fin_cases j <;> norm_num) unique 2 (by norm_num) (enough unique) (List.finRange 2)

example := C113_rate (u := (1 / 2) ^ 24) (by norm_num) (roundedOps_rounding fun a => binaryRound_error 23 a)
  (fun a b : ℝ => 1 + a * b) (fun a b => 1 + a * b + 1 / 1000) (fun a b => by ring) data
  (fun c => ((isPSD_const zero_le_one).add (isPSD_rankOne fun x : ℝ => x)).2 _ _ c) (fun j => 1 + data.data j * data.data j) ![0, 1, 2] ![-1, -2, -3]
  (ε := 1 / 1000) (R := 17) (Λ := 2) (L := 3) (fun i j => by rw [add_sub_cancel_left]; norm_num) (fun j => by simp) bound
  (by intro j; fin_cases j <;> norm_num) (by intro j; fin_cases j <;> norm_num) (by intro j; fin_cases j <;> norm_num) 2 (by norm_num) (by norm_num)
  (by simpa using enough false) (List.finRange 2)

example := C113_rate_unique (u := (1 / 2) ^ 24) (by norm_num) (roundedOps_rounding fun a => binaryRound_error 23 a)
  (fun a b : ℝ => 1 + a * b) (fun a b => 1 + a * b + 1 / 1000) (fun a b => by ring) data
  (fun c => ((isPSD_const zero_le_one).add (isPSD_rankOne fun x : ℝ => x)).2 _ _ c) ⟨1, by norm_num, by intro i; fin_cases i <;> simp [data]⟩
  (fun j => 1 + data.data j * data.data j) ![0, 1, 2] ![-1, -2, -3]
  (ε := 1 / 1000) (R := 17) (Λ := 2) (L := 3) (fun i j => by rw [add_sub_cancel_left]; norm_num) (fun j => by simp) bound
  (by intro j; fin_cases j <;> norm_num) (by intro j; fin_cases j <;> norm_num) (by intro j; fin_cases j <;> norm_num) 2 (by norm_num)
  (by simpa using enough true) (List.finRange 2)

example := C113_too_large (n := 3) (roundedOps (binaryRound 23)) (fun a b : ℝ => a * b) ![1, 4, 16] 0 0 true 4 (by norm_num) data []

/-- In single precision the first two points are the first and the last row. -/
example : flSteinReduce (roundedOps (binaryRound 23)) (fun a b : ℝ => 1 + a * b) (fun j => 1 + data.data j * data.data j) (fun _ => 0) (fun _ => 0) true 2
    data (List.finRange 2) = .ok ⟨fun t => ((![0, 2] t : Fin 3) : ℤ), fun _ => 1⟩ := by
  have he : ∀ i : ℕ, i < 2 → objectiveError ((1 / 2) ^ 24) 0 17 0 0 i < 1 / 100 := by
    intro i hi
    refine (C113_error_size (by norm_num) le_rfl (by norm_num) le_rfl le_rfl i).trans_lt ?_
    interval_cases i <;> norm_num
  refine C113_same_points (u := (1 / 2) ^ 24) (by norm_num) (roundedOps_rounding fun a => binaryRound_error 23 a)
    (fun a b => 1 + a * b) (fun a b => 1 + a * b) data _ (fun _ => 0) (fun _ => 0) (ε := 0) (R := 17) (Λ := 0) (L := 0)
    (fun i j => by simp) (fun j => by simp) bound (fun j => by simp) (fun j => by simp) true 2 (by norm_num) (enough true) _ ![0, 2] ?_ ?_
  · intro i
    fin_cases i <;> simp [data]
  · intro i j hj hju hne
    have h0 := he 0 (by norm_num)
    have h1 := he 1 (by norm_num)
    fin_cases i <;> fin_cases j <;> simp [data] at hju hne h0 h1 ⊢ <;> norm_num at h0 h1 ⊢ <;> linarith

end RoundedSteinExample

end Coreax
