import Verif.Spec.Draws
import Mathlib.Probability.Moments.SubGaussian
import Mathlib.MeasureTheory.Constructions.Pi
import Mathlib.MeasureTheory.Integral.Bochner.SumMeasure
import Mathlib.Analysis.InnerProductSpace.Basic
import Mathlib.Logic.Equiv.Bool

/-!
# The self-balancing walk behind kernel halving

A walk `ψ ← ψ ± d i` in an inner product space; the sign is drawn with mean `-⟨ψ, d i⟩ / a i`, clipped to `[-1, 1]`.
-/

set_option linter.unusedSectionVars false

namespace Coreax.Walk

open Finset MeasureTheory Spec

variable {H : Type*} [NormedAddCommGroup H] [InnerProductSpace ℝ H]

local notation "⟪" x ", " y "⟫" => inner ℝ x y

/-- The sign of a decision. -/
def sgn (b : Bool) : ℝ := if b then 1 else -1

/-- The position after `n` steps. -/
def pos (d : ℕ → H) (e : ℕ → Bool) (n : ℕ) : H := ∑ i ∈ range n, sgn (e i) • d i

/-- Finitely many decisions, continued by `false`. -/
def ext {n : ℕ} (ε : Fin n → Bool) : ℕ → Bool := fun i => if h : i < n then ε ⟨i, h⟩ else false

/-- Clipping to `[0, 1]`. -/
noncomputable def clip (v : ℝ) : ℝ := max 0 (min 1 v)

/-- The threshold of step `i`. -/
noncomputable def thr (d : ℕ → H) (a : ℕ → ℝ) (e : ℕ → Bool) (i : ℕ) : ℝ := 1 / 2 * (1 - ⟪pos d e i, d i⟫ / a i)

/-- The probability of the sign `+` in step `i`. -/
noncomputable def prob (d : ℕ → H) (a : ℕ → ℝ) (e : ℕ → Bool) (i : ℕ) : ℝ := clip (thr d a e i)

/-- The probability of the decision taken in step `i`. -/
noncomputable def wt (d : ℕ → H) (a : ℕ → ℝ) (e : ℕ → Bool) (i : ℕ) : ℝ :=
  if e i then prob d a e i else 1 - prob d a e i

/-- Expectation over the decisions of `n` steps. -/
noncomputable def E (d : ℕ → H) (a : ℕ → ℝ) (n : ℕ) (F : (ℕ → Bool) → ℝ) : ℝ :=
  ∑ ε : Fin n → Bool, (∏ i ∈ range n, wt d a (ext ε) i) * F (ext ε)

theorem clip_nonneg (v : ℝ) : 0 ≤ clip v := le_max_left _ _
theorem clip_le_one (v : ℝ) : clip v ≤ 1 := max_le zero_le_one (min_le_left _ _)

theorem pos_congr (d : ℕ → H) {e e' : ℕ → Bool} {n : ℕ} (h : ∀ i < n, e i = e' i) : pos d e n = pos d e' n :=
  Finset.sum_congr rfl fun i hi => by rw [h i (Finset.mem_range.1 hi)]

theorem thr_congr (d : ℕ → H) (a : ℕ → ℝ) {e e' : ℕ → Bool} {n : ℕ} (h : ∀ i < n, e i = e' i) :
    thr d a e n = thr d a e' n := by rw [thr, thr, pos_congr d h]

theorem prob_congr (d : ℕ → H) (a : ℕ → ℝ) {e e' : ℕ → Bool} {n : ℕ} (h : ∀ i < n, e i = e' i) :
    prob d a e n = prob d a e' n := by rw [prob, prob, thr_congr d a h]

theorem wt_congr (d : ℕ → H) (a : ℕ → ℝ) {e e' : ℕ → Bool} {n : ℕ} (h : ∀ i < n + 1, e i = e' i) :
    wt d a e n = wt d a e' n := by
  rw [wt, wt, prob_congr d a (fun i hi => h i (by omega)), h n (by omega)]

theorem wt_nonneg (d : ℕ → H) (a : ℕ → ℝ) (e : ℕ → Bool) (n : ℕ) : 0 ≤ wt d a e n := by
  unfold wt
  split
  · exact clip_nonneg _
  · exact sub_nonneg.2 (clip_le_one _)

theorem ext_snoc {n : ℕ} (ε : Fin n → Bool) (b : Bool) :
    ext (Fin.snoc (α := fun _ => Bool) ε b) = Function.update (ext ε) n b := by
  funext i
  unfold ext
  by_cases hi : i < n
  · rw [Function.update_of_ne hi.ne, dif_pos hi, dif_pos (by omega)]
    have : (⟨i, by omega⟩ : Fin (n + 1)) = Fin.castSucc ⟨i, hi⟩ := rfl
    rw [this, Fin.snoc_castSucc]
  · by_cases hin : i = n
    · subst hin
      rw [Function.update_self, dif_pos (by omega)]
      have : (⟨i, by omega⟩ : Fin (i + 1)) = Fin.last i := rfl
      rw [this, Fin.snoc_last]
    · rw [Function.update_of_ne hin, dif_neg hi, dif_neg (by omega)]

theorem sum_snoc {n : ℕ} (f : (Fin (n + 1) → Bool) → ℝ) :
    ∑ ε, f ε = ∑ ε : Fin n → Bool, (f (Fin.snoc (α := fun _ => Bool) ε true) + f (Fin.snoc (α := fun _ => Bool) ε false)) := by
  rw [← Equiv.sum_comp (Fin.snocEquiv (fun _ : Fin (n + 1) => Bool)) f, Fintype.sum_prod_type, Fintype.sum_bool,
    ← Finset.sum_add_distrib]
  rfl

/-- The last step of the expectation. -/
theorem E_succ (d : ℕ → H) (a : ℕ → ℝ) (n : ℕ) (F : (ℕ → Bool) → ℝ) :
    E d a (n + 1) F = E d a n (fun e => prob d a e n * F (Function.update e n true)
      + (1 - prob d a e n) * F (Function.update e n false)) := by
  unfold E
  rw [sum_snoc]
  refine Finset.sum_congr rfl fun ε _ => ?_
  rw [ext_snoc, ext_snoc, Finset.prod_range_succ, Finset.prod_range_succ]
  have h1 : ∀ b, ∏ i ∈ range n, wt d a (Function.update (ext ε) n b) i = ∏ i ∈ range n, wt d a (ext ε) i := by
    intro b
    refine Finset.prod_congr rfl fun i hi => wt_congr d a fun j hj => ?_
    have := Finset.mem_range.1 hi
    rw [Function.update_of_ne (by omega)]
  have h2 : ∀ b, prob d a (Function.update (ext ε) n b) n = prob d a (ext ε) n := fun b =>
    prob_congr d a fun j hj => by rw [Function.update_of_ne (by omega)]
  rw [h1, h1, wt, wt, h2, h2, Function.update_self, Function.update_self]
  simp only [if_true, Bool.false_eq_true, if_false]
  ring

theorem E_mono (d : ℕ → H) (a : ℕ → ℝ) (n : ℕ) {F G : (ℕ → Bool) → ℝ} (h : ∀ e, F e ≤ G e) : E d a n F ≤ E d a n G :=
  Finset.sum_le_sum fun ε _ => mul_le_mul_of_nonneg_left (h _) (Finset.prod_nonneg fun i _ => wt_nonneg _ _ _ _)

theorem E_add (d : ℕ → H) (a : ℕ → ℝ) (n : ℕ) (F G : (ℕ → Bool) → ℝ) :
    E d a n (fun e => F e + G e) = E d a n F + E d a n G := by
  unfold E
  rw [← Finset.sum_add_distrib]
  exact Finset.sum_congr rfl fun ε _ => by ring

theorem E_mul (d : ℕ → H) (a : ℕ → ℝ) (n : ℕ) (c : ℝ) (F : (ℕ → Bool) → ℝ) :
    E d a n (fun e => c * F e) = c * E d a n F := by
  unfold E
  rw [Finset.mul_sum]
  exact Finset.sum_congr rfl fun ε _ => by ring

theorem E_const (d : ℕ → H) (a : ℕ → ℝ) (n : ℕ) (c : ℝ) : E d a n (fun _ => c) = c := by
  induction n with
  | zero => simp [E]
  | succ n ih =>
    rw [E_succ, show (fun e => prob d a e n * c + (1 - prob d a e n) * c) = fun _ => c from funext fun e => by ring]
    exact ih

/-- A function of the first `n` decisions has the same expectation over more steps. -/
theorem E_stable (d : ℕ → H) (a : ℕ → ℝ) (n : ℕ) (F : (ℕ → Bool) → ℝ) (hF : ∀ e b, F (Function.update e n b) = F e) :
    E d a (n + 1) F = E d a n F := by
  rw [E_succ]
  unfold E
  refine Finset.sum_congr rfl fun ε _ => ?_
  beta_reduce
  rw [hF, hF]; ring

theorem pos_succ (d : ℕ → H) (e : ℕ → Bool) (n : ℕ) : pos d e (n + 1) = pos d e n + sgn (e n) • d n :=
  Finset.sum_range_succ _ _

theorem pos_update (d : ℕ → H) (e : ℕ → Bool) (n : ℕ) (b : Bool) :
    pos d (Function.update e n b) (n + 1) = pos d e n + sgn b • d n := by
  rw [pos_succ, Function.update_self, pos_congr d (e' := e) (fun i hi => by rw [Function.update_of_ne hi.ne])]

/-! ### The expected squared length -/

/-- In expectation, the squared length grows by at most `‖d i‖²` per step. -/
theorem E_sq (d : ℕ → H) (a : ℕ → ℝ) (ha : ∀ i, 0 < a i) (n : ℕ) :
    E d a n (fun e => ‖pos d e n‖ ^ 2) ≤ ∑ i ∈ range n, ‖d i‖ ^ 2 := by
  induction n with
  | zero => simp [E, pos]
  | succ n ih =>
    rw [E_succ, Finset.sum_range_succ]
    calc _ ≤ E d a n (fun e => ‖pos d e n‖ ^ 2 + ‖d n‖ ^ 2) := by
          refine E_mono _ _ _ fun e => ?_
          rw [pos_update, pos_update]
          have h1 : ∀ b, ‖pos d e n + sgn b • d n‖ ^ 2
              = ‖pos d e n‖ ^ 2 + 2 * (sgn b * ⟪pos d e n, d n⟫) + ‖d n‖ ^ 2 := by
            intro b
            rw [norm_add_sq_real, inner_smul_right, norm_smul]
            have : ‖sgn b‖ = 1 := by cases b <;> simp [sgn]
            rw [this, one_mul]
          rw [h1, h1]
          have h2 : (2 * prob d a e n - 1) * ⟪pos d e n, d n⟫ ≤ 0 := by
            unfold prob clip thr
            set α := ⟪pos d e n, d n⟫
            rcases le_total 0 α with hα | hα
            · refine mul_nonpos_of_nonpos_of_nonneg ?_ hα
              have : α / a n ≥ 0 := div_nonneg hα (ha n).le
              have : max 0 (min 1 (1 / 2 * (1 - α / a n))) ≤ 1 / 2 :=
                max_le (by norm_num) ((min_le_right _ _).trans (by linarith))
              linarith
            · refine mul_nonpos_of_nonneg_of_nonpos ?_ hα
              have : α / a n ≤ 0 := div_nonpos_of_nonpos_of_nonneg hα (ha n).le
              have : 1 / 2 ≤ max 0 (min 1 (1 / 2 * (1 - α / a n))) :=
                le_max_of_le_right (le_min (by norm_num) (by linarith))
              linarith
          have e1 : sgn true = 1 := rfl
          have e2 : sgn false = -1 := rfl
          rw [e1, e2]
          nlinarith
      _ ≤ _ := by
          rw [E_add, E_const]
          linarith

/-! ### Sub-Gaussian bound -/

/-- Hoeffding's lemma for a sign. -/
theorem hoeffding_sign (p : ℝ) (h0 : 0 ≤ p) (h1 : p ≤ 1) (s : ℝ) :
    p * Real.exp s + (1 - p) * Real.exp (-s) ≤ Real.exp ((2 * p - 1) * s + s ^ 2 / 2) := by
  set μ : Measure ℝ := ENNReal.ofReal p • Measure.dirac 1 + ENNReal.ofReal (1 - p) • Measure.dirac (-1) with hμ
  have hprob : IsProbabilityMeasure μ := by
    constructor
    rw [hμ]
    simp only [Measure.coe_add, Measure.coe_smul, Pi.add_apply, Pi.smul_apply, smul_eq_mul, measure_univ, mul_one]
    rw [← ENNReal.ofReal_add h0 (by linarith)]
    simp
  have hI : ∀ f : ℝ → ℝ, ∫ x, f x ∂μ = p * f 1 + (1 - p) * f (-1) := by
    intro f
    have i1 : Integrable f (Measure.dirac (1 : ℝ)) := integrable_dirac (by simp)
    have i2 : Integrable f (Measure.dirac (-1 : ℝ)) := integrable_dirac (by simp)
    rw [hμ, integral_add_measure (i1.smul_measure ENNReal.ofReal_ne_top) (i2.smul_measure ENNReal.ofReal_ne_top),
      integral_smul_measure, integral_smul_measure, integral_dirac, integral_dirac,
      ENNReal.toReal_ofReal h0, ENNReal.toReal_ofReal (by linarith)]
    rfl
  have hb : ∀ᵐ ω ∂μ, (fun x : ℝ => x) ω ∈ Set.Icc (-1 : ℝ) 1 := by
    rw [ae_iff, hμ]
    simp
  have hsub := ProbabilityTheory.hasSubgaussianMGF_of_mem_Icc (μ := μ) (X := fun x : ℝ => x) aemeasurable_id hb
  have hm := hsub.mgf_le s
  rw [ProbabilityTheory.mgf, hI] at hm
  rw [hI (fun x => x)] at hm
  have hc : ((((‖(1 : ℝ) - -1‖₊ / 2) ^ 2 : NNReal)) : ℝ) = 1 := by
    push_cast
    norm_num
  rw [hc] at hm
  have hkey : p * Real.exp s + (1 - p) * Real.exp (-s)
      = Real.exp ((2 * p - 1) * s) * (p * Real.exp (s * (1 - (p * 1 + (1 - p) * -1)))
        + (1 - p) * Real.exp (s * (-1 - (p * 1 + (1 - p) * -1)))) := by
    rw [mul_add, mul_left_comm, ← Real.exp_add, mul_left_comm (Real.exp _), ← Real.exp_add]
    congr 3 <;> ring_nf
  rw [hkey, Real.exp_add]
  refine mul_le_mul_of_nonneg_left (hm.trans_eq ?_) (Real.exp_pos _).le
  congr 1; ring

/-- The variance proxy of kernel halving: the square of the parameter `sigma`. -/
noncomputable def var (b a : ℕ → ℝ) : ℕ → ℝ
  | 0 => 0
  | n + 1 => var b a n + max (b n ^ 2 * (1 + (b n ^ 2 - 2 * a n) * var b a n / a n ^ 2)) 0

theorem var_nonneg (b a : ℕ → ℝ) (n : ℕ) : 0 ≤ var b a n := by
  induction n with
  | zero => exact le_rfl
  | succ n ih => exact add_nonneg ih (le_max_right _ _)

/-- No probability had to be clipped in the first `n` steps. -/
def Free (d : ℕ → H) (a : ℕ → ℝ) (e : ℕ → Bool) (n : ℕ) : Prop := ∀ i < n, |⟪pos d e i, d i⟫| ≤ a i

open Classical in
/-- While nothing is clipped, the walk is sub-Gaussian with the variance proxy of the algorithm. -/
theorem E_exp (d : ℕ → H) (a : ℕ → ℝ) (ha : ∀ i, 0 < a i) (n : ℕ) : ∀ f : H,
    E d a n (fun e => if Free d a e n then Real.exp ⟪pos d e n, f⟫ else 0)
      ≤ Real.exp (var (fun i => ‖d i‖) a n * ‖f‖ ^ 2 / 2) := by
  induction n with
  | zero => intro f; simp [E, pos, var, Free]
  | succ n ih =>
    intro f
    set s := ⟪d n, f⟫ with hs
    set v := var (fun i => ‖d i‖) a n with hv
    have hv0 : 0 ≤ v := var_nonneg _ _ _
    set f' := f - (s / a n) • d n with hf'
    have han := ha n
    rw [E_succ]
    calc _ ≤ E d a n (fun e => Real.exp (s ^ 2 / 2) * (if Free d a e n then Real.exp ⟪pos d e n, f'⟫ else 0)) := by
          refine E_mono _ _ _ fun e => ?_
          have hfree : ∀ b, Free d a (Function.update e n b) (n + 1) ↔ Free d a e n ∧ |⟪pos d e n, d n⟫| ≤ a n := by
            intro b
            have hp : ∀ i ≤ n, pos d (Function.update e n b) i = pos d e i := fun i hi =>
              pos_congr d fun j hj => by rw [Function.update_of_ne (by omega)]
            constructor
            · intro hh
              refine ⟨fun i hi => ?_, ?_⟩
              · rw [← hp i hi.le]; exact hh i (by omega)
              · rw [← hp n le_rfl]; exact hh n (by omega)
            · rintro ⟨h1, h2⟩ i hi
              rw [hp i (by omega)]
              rcases Nat.lt_succ_iff_lt_or_eq.1 hi with hlt | heq
              · exact h1 i hlt
              · rw [heq]; exact h2
          simp only [hfree, pos_update]
          by_cases hF : Free d a e n
          · by_cases hα : |⟪pos d e n, d n⟫| ≤ a n
            · simp only [hF, hα, and_self, if_true]
              set α := ⟪pos d e n, d n⟫ with hαd
              have h2 := abs_le.1 hα
              have hle : α / a n ≤ 1 := (div_le_one han).2 h2.2
              have hge : -1 ≤ α / a n := by rw [le_div_iff₀ han]; linarith
              have hp : prob d a e n = 1 / 2 * (1 - α / a n) := by
                unfold prob clip thr
                rw [← hαd, min_eq_right (by linarith), max_eq_right (by linarith)]
              have e1 : ⟪pos d e n + sgn true • d n, f⟫ = ⟪pos d e n, f⟫ + s := by
                rw [inner_add_left, inner_smul_left]; simp [sgn, hs]
              have e2 : ⟪pos d e n + sgn false • d n, f⟫ = ⟪pos d e n, f⟫ + -s := by
                rw [inner_add_left, inner_smul_left]; simp [sgn, hs]
              rw [e1, e2, Real.exp_add, Real.exp_add]
              have hh := hoeffding_sign (prob d a e n) (clip_nonneg _) (clip_le_one _) s
              have hq : 2 * prob d a e n - 1 = -(α / a n) := by rw [hp]; ring
              rw [hq] at hh
              have e3 : ⟪pos d e n, f'⟫ = ⟪pos d e n, f⟫ + -(α / a n) * s := by
                rw [hf', inner_sub_right, inner_smul_right, ← hαd]; ring
              calc _ = Real.exp ⟪pos d e n, f⟫ * (prob d a e n * Real.exp s + (1 - prob d a e n) * Real.exp (-s)) := by ring
                _ ≤ Real.exp ⟪pos d e n, f⟫ * Real.exp (-(α / a n) * s + s ^ 2 / 2) :=
                    mul_le_mul_of_nonneg_left hh (Real.exp_pos _).le
                _ = _ := by rw [e3, ← Real.exp_add, ← Real.exp_add]; congr 1; ring
            · simp only [hF, hα, and_false, if_false, if_true, mul_zero, add_zero]
              exact mul_nonneg (Real.exp_pos _).le (Real.exp_pos _).le
          · simp only [hF, false_and, if_false, mul_zero, add_zero, le_refl]
      _ ≤ Real.exp (s ^ 2 / 2) * Real.exp (v * ‖f'‖ ^ 2 / 2) := by
          rw [E_mul]
          exact mul_le_mul_of_nonneg_left (ih f') (Real.exp_pos _).le
      _ ≤ _ := by
          rw [← Real.exp_add, Real.exp_le_exp]
          have hn : ‖f'‖ ^ 2 = ‖f‖ ^ 2 - 2 * s ^ 2 / a n + s ^ 2 * ‖d n‖ ^ 2 / a n ^ 2 := by
            rw [hf', norm_sub_sq_real, inner_smul_right, norm_smul, real_inner_comm, ← hs, mul_pow, Real.norm_eq_abs, sq_abs]
            field_simp
          have hcs : s ^ 2 ≤ ‖d n‖ ^ 2 * ‖f‖ ^ 2 := by
            rw [← mul_pow, ← sq_abs s]
            exact pow_le_pow_left₀ (abs_nonneg _) (abs_real_inner_le_norm _ _) 2
          simp only [var]
          rw [← hv, hn]
          set g := 1 + (‖d n‖ ^ 2 - 2 * a n) * v / a n ^ 2 with hg
          have hgoal : s ^ 2 / 2 + v * (‖f‖ ^ 2 - 2 * s ^ 2 / a n + s ^ 2 * ‖d n‖ ^ 2 / a n ^ 2) / 2
              = v * ‖f‖ ^ 2 / 2 + s ^ 2 * g / 2 := by
            rw [hg]; field_simp; ring
          rw [hgoal]
          have hle : s ^ 2 * g ≤ max (‖d n‖ ^ 2 * g) 0 * ‖f‖ ^ 2 := by
            rcases le_total 0 g with h0 | h0
            · rw [max_eq_left (by positivity)]
              nlinarith
            · rw [max_eq_right (mul_nonpos_of_nonneg_of_nonpos (by positivity) h0), zero_mul]
              exact mul_nonpos_of_nonneg_of_nonpos (sq_nonneg _) h0
          linarith

open Classical in
/-- One-sided tail while nothing is clipped. -/
theorem E_tail (d : ℕ → H) (a : ℕ → ℝ) (ha : ∀ i, 0 < a i) (n : ℕ) (f : H) (t V : ℝ) (ht : 0 ≤ t) (hV : 0 < V)
    (hvV : var (fun i => ‖d i‖) a n * ‖f‖ ^ 2 ≤ V) :
    E d a n (fun e => if Free d a e n ∧ t ≤ ⟪pos d e n, f⟫ then 1 else 0) ≤ Real.exp (-(t ^ 2 / (2 * V))) := by
  set l := t / V with hl
  have hl0 : 0 ≤ l := div_nonneg ht hV.le
  calc _ ≤ E d a n (fun e => Real.exp (-(l * t)) * (if Free d a e n then Real.exp ⟪pos d e n, l • f⟫ else 0)) := by
        refine E_mono _ _ _ fun e => ?_
        by_cases hF : Free d a e n
        · by_cases h2 : t ≤ ⟪pos d e n, f⟫
          · simp only [hF, h2, and_self, if_true]
            rw [← Real.exp_add, inner_smul_right]
            refine Real.one_le_exp ?_
            nlinarith
          · simp only [hF, h2, and_false, if_false, if_true]
            exact mul_nonneg (Real.exp_pos _).le (Real.exp_pos _).le
        · simp [hF]
    _ ≤ Real.exp (-(l * t)) * Real.exp (var (fun i => ‖d i‖) a n * ‖l • f‖ ^ 2 / 2) := by
        rw [E_mul]
        exact mul_le_mul_of_nonneg_left (E_exp d a ha n _) (Real.exp_pos _).le
    _ ≤ _ := by
        rw [← Real.exp_add, Real.exp_le_exp, norm_smul, mul_pow, Real.norm_eq_abs, sq_abs]
        have h1 : var (fun i => ‖d i‖) a n * (l ^ 2 * ‖f‖ ^ 2) ≤ l ^ 2 * V := by nlinarith [sq_nonneg l]
        have h2 : l ^ 2 * V = t ^ 2 / V := by rw [hl]; field_simp
        have h3 : l * t = t ^ 2 / V := by rw [hl]; ring
        have h4 : t ^ 2 / (2 * V) = t ^ 2 / V / 2 := by field_simp
        rw [h3, h4]
        linarith

open Classical in
/-- Two-sided tail while nothing is clipped. -/
theorem E_tail_abs (d : ℕ → H) (a : ℕ → ℝ) (ha : ∀ i, 0 < a i) (n : ℕ) (f : H) (t V : ℝ) (ht : 0 ≤ t) (hV : 0 < V)
    (hvV : var (fun i => ‖d i‖) a n * ‖f‖ ^ 2 ≤ V) :
    E d a n (fun e => if Free d a e n ∧ t ≤ |⟪pos d e n, f⟫| then 1 else 0) ≤ 2 * Real.exp (-(t ^ 2 / (2 * V))) := by
  calc _ ≤ E d a n (fun e => (if Free d a e n ∧ t ≤ ⟪pos d e n, f⟫ then 1 else 0)
          + (if Free d a e n ∧ t ≤ ⟪pos d e n, -f⟫ then 1 else 0)) := by
        refine E_mono _ _ _ fun e => ?_
        rw [inner_neg_right]
        by_cases hF : Free d a e n
        · simp only [hF, true_and, le_abs]
          by_cases h1 : t ≤ ⟪pos d e n, f⟫ <;> by_cases h2 : t ≤ -⟪pos d e n, f⟫ <;> simp [h1, h2]
        · simp [hF]
    _ ≤ _ := by
        rw [E_add, two_mul]
        exact add_le_add (E_tail d a ha n f t V ht hV hvV) (E_tail d a ha n (-f) t V ht hV (by rwa [norm_neg]))

open Classical in
/-- The probability that some step is clipped. -/
theorem E_clip (d : ℕ → H) (a : ℕ → ℝ) (ha : ∀ i, 0 < a i) (c : ℝ) (hc : 0 < c)
    (hac : ∀ i, ‖d i‖ * Real.sqrt (var (fun i => ‖d i‖) a i) * c ≤ a i) (n : ℕ) :
    E d a n (fun e => if Free d a e n then 0 else 1) ≤ n * (2 * Real.exp (-(c ^ 2 / 2))) := by
  induction n with
  | zero => simp [E, Free]
  | succ n ih =>
    have hfree : ∀ e b, Free d a (Function.update e n b) (n + 1) ↔ Free d a e n ∧ |⟪pos d e n, d n⟫| ≤ a n := by
      intro e b
      have hp : ∀ i ≤ n, pos d (Function.update e n b) i = pos d e i := fun i hi =>
        pos_congr d fun j hj => by rw [Function.update_of_ne (by omega)]
      constructor
      · intro hh
        refine ⟨fun i hi => ?_, ?_⟩
        · rw [← hp i hi.le]; exact hh i (by omega)
        · rw [← hp n le_rfl]; exact hh n (by omega)
      · rintro ⟨h1, h2⟩ i hi
        rw [hp i (by omega)]
        rcases Nat.lt_succ_iff_lt_or_eq.1 hi with hlt | heq
        · exact h1 i hlt
        · rw [heq]; exact h2
    set v := var (fun i => ‖d i‖) a n with hv
    have hv0 : 0 ≤ v := var_nonneg _ _ _
    have hV : 0 < a n ^ 2 / c ^ 2 := by have := ha n; positivity
    have hvV : v * ‖d n‖ ^ 2 ≤ a n ^ 2 / c ^ 2 := by
      rw [le_div_iff₀ (by positivity)]
      have h1 := hac n
      have h2 : (‖d n‖ * Real.sqrt v * c) ^ 2 ≤ a n ^ 2 := pow_le_pow_left₀ (by positivity) h1 2
      calc v * ‖d n‖ ^ 2 * c ^ 2 = (‖d n‖ * Real.sqrt v * c) ^ 2 := by
            rw [mul_pow, mul_pow, Real.sq_sqrt hv0]; ring
        _ ≤ _ := h2
    calc _ ≤ E d a n (fun e => (if Free d a e n then 0 else 1)
            + (if Free d a e n ∧ a n ≤ |⟪pos d e n, d n⟫| then 1 else 0)) := by
          rw [E_succ]
          refine E_mono _ _ _ fun e => ?_
          simp only [hfree]
          by_cases hF : Free d a e n
          · by_cases hα : |⟪pos d e n, d n⟫| ≤ a n
            · simp only [hF, hα, and_self, if_true, true_and, mul_zero, add_zero, zero_add]
              split <;> norm_num
            · have : a n ≤ |⟪pos d e n, d n⟫| := (not_le.1 hα).le
              simp [hF, hα, this]
          · simp [hF]
      _ ≤ _ := by
          rw [E_add]
          have h1 := E_tail_abs d a ha n (d n) (a n) (a n ^ 2 / c ^ 2) (ha n).le hV hvV
          have h2 : a n ^ 2 / (2 * (a n ^ 2 / c ^ 2)) = c ^ 2 / 2 := by
            have := (ha n).ne'
            field_simp
          rw [h2] at h1
          push_cast
          linarith

open Classical in
/-- The tail of the walk, clipped or not. -/
theorem E_bound (d : ℕ → H) (a : ℕ → ℝ) (ha : ∀ i, 0 < a i) (c : ℝ) (hc : 0 < c)
    (hac : ∀ i, ‖d i‖ * Real.sqrt (var (fun i => ‖d i‖) a i) * c ≤ a i) (n : ℕ) (f : H) (t V : ℝ) (ht : 0 ≤ t) (hV : 0 < V)
    (hvV : var (fun i => ‖d i‖) a n * ‖f‖ ^ 2 ≤ V) :
    E d a n (fun e => if t ≤ |⟪pos d e n, f⟫| then 1 else 0)
      ≤ 2 * Real.exp (-(t ^ 2 / (2 * V))) + n * (2 * Real.exp (-(c ^ 2 / 2))) := by
  calc _ ≤ E d a n (fun e => (if Free d a e n ∧ t ≤ |⟪pos d e n, f⟫| then 1 else 0) + (if Free d a e n then 0 else 1)) := by
        refine E_mono _ _ _ fun e => ?_
        by_cases hF : Free d a e n <;> by_cases h2 : t ≤ |⟪pos d e n, f⟫| <;> simp [hF, h2]
    _ ≤ _ := by
        rw [E_add]
        exact add_le_add (E_tail_abs d a ha n f t V ht hV hvV) (E_clip d a ha c hc hac n)

/-- The variance proxy stays bounded, whatever the number of steps. -/
theorem var_le (b a : ℕ → ℝ) (c B : ℝ) (hc : 0 < c) (hb : ∀ i, 0 < b i) (hB : ∀ i, b i ≤ B)
    (hadef : ∀ i, a i = max (b i * Real.sqrt (var b a i) * c) (b i ^ 2)) (n : ℕ) :
    var b a n ≤ (B * ((c + 1 / c) / 2)) ^ 2 := by
  set κ := (c + 1 / c) / 2 with hκ
  have hκ1 : 1 ≤ κ := by
    have h1 : c * (1 / c) = 1 := by field_simp
    rw [hκ]
    have : 0 < 1 / c := by positivity
    nlinarith [sq_nonneg (c - 1 / c)]
  have hB0 : 0 < B := (hb 0).trans_le (hB 0)
  induction n with
  | zero => simp only [var]; positivity
  | succ n ih =>
    have hbn := hb n
    have hbB := hB n
    set v := var b a n with hv
    have hv0 : 0 ≤ v := var_nonneg _ _ _
    set σ := Real.sqrt v with hσ
    have hσ0 : 0 ≤ σ := Real.sqrt_nonneg _
    have hσ2 : σ ^ 2 = v := Real.sq_sqrt hv0
    have hA := hadef n
    rw [← hv, ← hσ] at hA
    simp only [var]
    rw [← hv]
    have hbκ : b n * κ ≤ B * κ := by nlinarith
    have hbk2 : (b n * κ) ^ 2 ≤ (B * κ) ^ 2 := pow_le_pow_left₀ (by positivity) hbκ 2
    have hb2 : b n ^ 2 ≤ (b n * κ) ^ 2 := pow_le_pow_left₀ hbn.le (by nlinarith) 2
    rcases le_total (b n * σ * c) (b n ^ 2) with hcase | hcase
    · rw [max_eq_right hcase] at hA
      rw [hA]
      have e1 : b n ^ 2 * (1 + (b n ^ 2 - 2 * b n ^ 2) * v / (b n ^ 2) ^ 2) = b n ^ 2 - v := by
        field_simp; ring
      rw [e1]
      rcases le_total (b n ^ 2 - v) 0 with h0 | h0
      · rw [max_eq_right h0]; linarith
      · rw [max_eq_left h0]; linarith
    · rw [max_eq_left hcase] at hA
      have hσpos : 0 < σ := by
        rcases hσ0.lt_or_eq with h | h
        · exact h
        · rw [← h] at hcase; simp only [mul_zero, zero_mul] at hcase; nlinarith
      have hlow : b n / c ≤ σ := by
        rw [div_le_iff₀ hc]
        have : b n * b n ≤ b n * (σ * c) := by nlinarith
        exact le_of_mul_le_mul_left this hbn
      have e1 : b n ^ 2 * (1 + (b n ^ 2 - 2 * a n) * v / a n ^ 2) = b n ^ 2 + (b n / c) ^ 2 - 2 * (b n / c) * σ := by
        rw [hA, ← hσ2]
        field_simp
        ring
      rw [e1]
      rcases le_total (b n ^ 2 + (b n / c) ^ 2 - 2 * (b n / c) * σ) 0 with h0 | h0
      · rw [max_eq_right h0]; linarith
      · rw [max_eq_left h0]
        have hup : σ ≤ b n * κ := by
          have hq : 0 < b n / c := by positivity
          have h3 : 2 * (b n / c) * (b n * κ) = b n ^ 2 + (b n / c) ^ 2 := by
            rw [hκ]; field_simp
          have h4 : 2 * (b n / c) * σ ≤ 2 * (b n / c) * (b n * κ) := by rw [h3]; linarith
          exact le_of_mul_le_mul_left h4 (by positivity)
        have h5 : (σ - b n / c) ^ 2 ≤ (b n * κ - b n / c) ^ 2 := pow_le_pow_left₀ (by linarith) (by linarith) 2
        have h6 : (b n * κ - b n / c) ^ 2 + b n ^ 2 = (b n * κ) ^ 2 := by
          rw [hκ]; field_simp; ring
        rw [← hσ2]
        nlinarith

/-! ### Symmetry -/

theorem sgn_not (b : Bool) : sgn (!b) = -sgn b := by cases b <;> simp [sgn]

theorem pos_flip (d : ℕ → H) {e e' : ℕ → Bool} {n : ℕ} (h : ∀ i < n, e' i = !e i) : pos d e' n = -pos d e n := by
  unfold pos
  rw [← Finset.sum_neg_distrib]
  refine Finset.sum_congr rfl fun i hi => ?_
  rw [h i (Finset.mem_range.1 hi), sgn_not, neg_smul]

theorem clip_one_sub (v : ℝ) : clip (1 - v) = 1 - clip v := by
  unfold clip
  rcases le_total v 0 with h0 | h0
  · rw [min_eq_left (by linarith), min_eq_right (by linarith), max_eq_right (by linarith), max_eq_left h0]; ring
  · rcases le_total v 1 with h1 | h1
    · rw [min_eq_right (by linarith), min_eq_right h1, max_eq_right (by linarith), max_eq_right h0]
    · rw [min_eq_right (by linarith), min_eq_left h1, max_eq_left (by linarith), max_eq_right (by linarith)]; ring

theorem wt_flip (d : ℕ → H) (a : ℕ → ℝ) {e e' : ℕ → Bool} {n : ℕ} (h : ∀ i < n + 1, e' i = !e i) :
    wt d a e' n = wt d a e n := by
  have hp : prob d a e' n = 1 - prob d a e n := by
    unfold prob
    rw [← clip_one_sub]
    unfold thr
    rw [pos_flip d (fun i hi => h i (by omega)), inner_neg_left]
    congr 1
    ring
  unfold wt
  rw [h n (by omega), hp]
  cases e n <;> simp

/-- Exchanging all signs does not change the law of the walk. -/
theorem E_flip (d : ℕ → H) (a : ℕ → ℝ) (n : ℕ) (G : (Fin n → Bool) → ℝ) :
    E d a n (fun e => G fun i => e i) = E d a n (fun e => G fun i => !e i) := by
  unfold E
  rw [← Equiv.sum_comp (Equiv.piCongrRight fun _ : Fin n => Equiv.boolNot)
    (fun ε : Fin n → Bool => (∏ i ∈ range n, wt d a (ext ε) i) * G fun i => !ext ε i)]
  refine Finset.sum_congr rfl fun ε _ => ?_
  have he : ∀ i < n, ext ((Equiv.piCongrRight fun _ : Fin n => Equiv.boolNot) ε) i = !ext ε i := by
    intro i hi
    unfold ext
    rw [dif_pos hi, dif_pos hi]
    rfl
  congr 1
  · refine Finset.prod_congr rfl fun i hi => (wt_flip d a fun j hj => he j ?_).symm
    have := Finset.mem_range.1 hi
    omega
  · change (G fun i => ext ε i) = _
    refine congrArg G (funext fun i => ?_)
    rw [he i i.2, Bool.not_not]

/-! ### The law of the decisions under independent uniform draws -/

instance uniform_prob : IsProbabilityMeasure ((volume : Measure ℝ).restrict (Set.Icc 0 1)) :=
  ⟨by rw [Measure.restrict_apply_univ, Real.volume_Icc]; norm_num⟩

instance draws_prob (n : ℕ) : IsProbabilityMeasure (uniformDraws n) := by unfold uniformDraws; infer_instance

/-- A uniform draw is at most `v` with probability `clip v`. -/
theorem uniform_le (v : ℝ) : ((volume : Measure ℝ).restrict (Set.Icc 0 1)) {t | t ≤ v} = ENNReal.ofReal (clip v) := by
  rw [Measure.restrict_apply (show MeasurableSet {t : ℝ | t ≤ v} from measurableSet_Iic)]
  have : ({t : ℝ | t ≤ v} ∩ Set.Icc 0 1) = Set.Icc 0 (min 1 v) := by
    ext t
    simp only [Set.mem_inter_iff, Set.mem_ofPred_eq, Set.mem_Icc, le_min_iff]
    tauto
  rw [this, Real.volume_Icc, sub_zero, clip]
  rcases le_total 0 (min 1 v) with h | h
  · rw [max_eq_right h]
  · rw [max_eq_left h, ENNReal.ofReal_of_nonpos h, ENNReal.ofReal_zero]

theorem uniform_gt (v : ℝ) : ((volume : Measure ℝ).restrict (Set.Icc 0 1)) {t | ¬ t ≤ v} = ENNReal.ofReal (1 - clip v) := by
  have h := prob_compl_eq_one_sub (μ := (volume : Measure ℝ).restrict (Set.Icc 0 1)) (measurableSet_Iic : MeasurableSet (Set.Iic v))
  have e1 : (Set.Iic v)ᶜ = {t : ℝ | ¬ t ≤ v} := rfl
  have e2 : Set.Iic v = {t : ℝ | t ≤ v} := rfl
  rw [e1, e2, uniform_le] at h
  rw [h, ENNReal.ofReal_sub _ (clip_nonneg _), ENNReal.ofReal_one]

variable {n : ℕ} (d : ℕ → H) (a : ℕ → ℝ)

/-- The decisions are fixed by the draws. -/
theorem dec_iff (dec : (Fin n → ℝ) → Fin n → Bool) (hdec : ∀ u i, dec u i = true ↔ u i ≤ thr d a (ext (dec u)) i)
    (u : Fin n → ℝ) (ε : Fin n → Bool) : dec u = ε ↔ ∀ i, (ε i = true ↔ u i ≤ thr d a (ext ε) i) := by
  constructor
  · rintro rfl i; exact hdec u i
  · intro h
    have key : ∀ m : ℕ, ∀ i : Fin n, (i : ℕ) < m → dec u i = ε i := by
      intro m
      induction m with
      | zero => intro i hi; omega
      | succ m ih =>
        intro i hi
        have : thr d a (ext (dec u)) i = thr d a (ext ε) i := thr_congr d a fun j hj => by
          unfold ext
          rw [dif_pos (by omega), dif_pos (by omega)]
          exact ih ⟨j, by omega⟩ (by simp; omega)
        have h1 := hdec u i
        rw [this, ← h i] at h1
        exact Bool.eq_iff_iff.2 h1
    exact funext fun i => key (i + 1) i (by omega)

/-- The set of draws that lead to given decisions. -/
def box (ε : Fin n → Bool) : Set (Fin n → ℝ) := Set.pi Set.univ fun i => {t | ε i = true ↔ t ≤ thr d a (ext ε) i}

theorem box_measurable (ε : Fin n → Bool) : MeasurableSet (box d a ε) := by
  refine MeasurableSet.univ_pi fun i => ?_
  cases ε i
  · have : {t : ℝ | false = true ↔ t ≤ thr d a (ext ε) i} = Set.Ioi (thr d a (ext ε) i) := by
      ext t
      simp
    rw [this]; exact measurableSet_Ioi
  · have : {t : ℝ | true = true ↔ t ≤ thr d a (ext ε) i} = Set.Iic (thr d a (ext ε) i) := by
      ext t
      simp
    rw [this]; exact measurableSet_Iic

theorem box_measure (ε : Fin n → Bool) : uniformDraws n (box d a ε) = ENNReal.ofReal (∏ i ∈ range n, wt d a (ext ε) i) := by
  unfold uniformDraws box
  rw [Measure.pi_pi, Finset.prod_range, ENNReal.ofReal_prod_of_nonneg (fun i _ => wt_nonneg _ _ _ _)]
  refine Finset.prod_congr rfl fun i _ => ?_
  have he : ext ε i = ε i := by unfold ext; rw [dif_pos i.2]
  rw [wt, he]
  cases ε i
  · simp only [Bool.false_eq_true, false_iff, if_false]
    exact uniform_gt _
  · simp only [true_iff, if_true]
    exact uniform_le _

theorem dec_preimage (dec : (Fin n → ℝ) → Fin n → Bool) (hdec : ∀ u i, dec u i = true ↔ u i ≤ thr d a (ext (dec u)) i)
    (ε : Fin n → Bool) : dec ⁻¹' {ε} = box d a ε := by
  ext u
  rw [Set.mem_preimage, Set.mem_singleton_iff, dec_iff d a dec hdec, box, Set.mem_univ_pi]
  rfl

theorem dec_measurable (dec : (Fin n → ℝ) → Fin n → Bool) (hdec : ∀ u i, dec u i = true ↔ u i ≤ thr d a (ext (dec u)) i) :
    Measurable dec :=
  measurable_to_countable' fun ε => by rw [dec_preimage d a dec hdec]; exact box_measurable d a ε

/-- The expectation over the draws is the expectation over the decisions. -/
theorem integral_eq (dec : (Fin n → ℝ) → Fin n → Bool) (hdec : ∀ u i, dec u i = true ↔ u i ≤ thr d a (ext (dec u)) i)
    (F : (ℕ → Bool) → ℝ) : ∫ u, F (ext (dec u)) ∂(uniformDraws n) = E d a n F := by
  have hm := dec_measurable d a dec hdec
  have h1 : ∫ u, F (ext (dec u)) ∂(uniformDraws n) = ∫ ε, F (ext ε) ∂((uniformDraws n).map dec) :=
    (integral_map (f := fun ε => F (ext ε)) hm.aemeasurable (measurable_of_finite _).aestronglyMeasurable).symm
  have : IsProbabilityMeasure ((uniformDraws n).map dec) := Measure.isProbabilityMeasure_map hm.aemeasurable
  rw [h1, integral_fintype (Integrable.of_finite)]
  unfold E
  refine Finset.sum_congr rfl fun ε _ => ?_
  rw [Measure.real, Measure.map_apply hm (measurableSet_singleton ε), dec_preimage d a dec hdec, box_measure,
    ENNReal.toReal_ofReal (Finset.prod_nonneg fun i _ => wt_nonneg _ _ _ _), smul_eq_mul]

open Classical in
/-- The probability of an event about the decisions. -/
theorem measure_eq (dec : (Fin n → ℝ) → Fin n → Bool) (hdec : ∀ u i, dec u i = true ↔ u i ≤ thr d a (ext (dec u)) i)
    (P : (ℕ → Bool) → Prop) : (uniformDraws n).real {u | P (ext (dec u))} = E d a n (fun e => if P e then 1 else 0) := by
  have hm := dec_measurable d a dec hdec
  rw [← integral_eq d a dec hdec]
  have hset : MeasurableSet {u | P (ext (dec u))} := by
    have : {u | P (ext (dec u))} = dec ⁻¹' {ε | P (ext ε)} := rfl
    rw [this]
    exact hm (Set.toFinite _).measurableSet
  have : (fun u => if P (ext (dec u)) then (1 : ℝ) else 0) = Set.indicator {u | P (ext (dec u))} (fun _ => 1) := by
    funext u
    simp [Set.indicator_apply]
  rw [this, integral_indicator_const _ hset]
  simp

end Coreax.Walk
