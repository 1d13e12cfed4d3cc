import Verif.Model.Softmax
import Verif.Props.Herding
import Verif.Lemmas.RPC
import Mathlib.Analysis.SpecialFunctions.Log.Basic
import Mathlib.Topology.Algebra.Order.LiminfLimsup

/-!
# C47: probabilistic kernel herding
-/

set_option linter.unusedSectionVars false

namespace Coreax

open Ext

/-! ### Lemmas on maxima and sums -/

theorem Ext.maxOp_nan_right (a : Ext ℝ) : Ext.maxOp a .nan = .nan := by cases a <;> rfl

theorem foldl_maxOp_nan (l : List (Ext ℝ)) : l.foldl Ext.maxOp .nan = .nan := by
  induction l with
  | nil => rfl
  | cons b l ih => exact ih

theorem foldl_maxOp_mem_nan (l : List (Ext ℝ)) (a : Ext ℝ) (h : Ext.nan ∈ l) : l.foldl Ext.maxOp a = .nan := by
  induction l generalizing a with
  | nil => simp at h
  | cons b l ih =>
    rw [List.foldl_cons]
    rcases List.mem_cons.1 h with h | h
    · rw [← h, Ext.maxOp_nan_right, foldl_maxOp_nan]
    · exact ih _ h

theorem Ext.maxOp_spec (a b : Ext ℝ) (ha : a ≠ .nan) (hb : b ≠ .nan) :
    (Ext.maxOp a b = a ∨ Ext.maxOp a b = b) ∧ Ext.lt (Ext.maxOp a b) a = false ∧ Ext.lt (Ext.maxOp a b) b = false := by
  rcases a with _ | _ | x | _ <;> rcases b with _ | _ | y | _ <;> simp_all [Ext.maxOp, Ext.lt]
  rcases le_total x y with h | h
  · exact Or.inr h
  · exact Or.inl h

theorem Ext.lt_false_trans {a b c : Ext ℝ} (ha : a ≠ .nan) (hb : b ≠ .nan) (hc : c ≠ .nan) (h1 : Ext.lt a b = false) (h2 : Ext.lt b c = false) :
    Ext.lt a c = false := by
  rcases a with _ | _ | x | _ <;> rcases b with _ | _ | y | _ <;> rcases c with _ | _ | z | _ <;> simp_all [Ext.lt]
  linarith

theorem foldl_maxOp_spec (l : List (Ext ℝ)) (a : Ext ℝ) (ha : a ≠ .nan) (h : Ext.nan ∉ l) :
    l.foldl Ext.maxOp a ≠ .nan ∧ (l.foldl Ext.maxOp a = a ∨ l.foldl Ext.maxOp a ∈ l) ∧ Ext.lt (l.foldl Ext.maxOp a) a = false ∧
    ∀ b ∈ l, Ext.lt (l.foldl Ext.maxOp a) b = false := by
  induction l generalizing a with
  | nil => refine ⟨ha, Or.inl rfl, ?_, by simp⟩; cases a <;> simp [Ext.lt]
  | cons b l ih =>
    rw [List.mem_cons, not_or] at h
    have hb : b ≠ .nan := fun hh => h.1 hh.symm
    obtain ⟨s1, s2, s3⟩ := Ext.maxOp_spec a b ha hb
    have hm : Ext.maxOp a b ≠ .nan := by rcases s1 with s | s <;> rw [s] <;> assumption
    obtain ⟨i1, i2, i3, i4⟩ := ih (Ext.maxOp a b) hm h.2
    rw [List.foldl_cons]
    refine ⟨i1, ?_, Ext.lt_false_trans i1 hm ha i3 s2, ?_⟩
    · rcases i2 with i | i
      · rw [i]
        rcases s1 with s | s
        · exact Or.inl s
        · right; rw [s]; exact List.mem_cons_self
      · exact Or.inr (List.mem_cons_of_mem _ i)
    · intro c hc
      rcases List.mem_cons.1 hc with rfl | hc
      · exact Ext.lt_false_trans i1 hm hb i3 s3
      · exact i4 c hc

variable {n : ℕ}

theorem maxF_nan (x : Fin n → Ext ℝ) (h : ∃ j, x j = .nan) : Ext.maxF x = .nan := by
  obtain ⟨j, hj⟩ := h
  exact foldl_maxOp_mem_nan _ _ (by rw [List.mem_ofFn]; exact ⟨j, hj⟩)

theorem maxF_spec (x : Fin n → Ext ℝ) (h : ∀ j, x j ≠ .nan) :
    Ext.maxF x ≠ .nan ∧ (Ext.maxF x = .ninf ∨ ∃ j, x j = Ext.maxF x) ∧ ∀ j, Ext.lt (Ext.maxF x) (x j) = false := by
  obtain ⟨h1, h2, -, h3⟩ := foldl_maxOp_spec (List.ofFn x) .ninf (by simp) (by rw [List.mem_ofFn]; rintro ⟨j, hj⟩; exact h j hj)
  refine ⟨h1, ?_, fun j => h3 _ (by rw [List.mem_ofFn]; exact ⟨j, rfl⟩)⟩
  rcases h2 with h2 | h2
  · exact Or.inl h2
  · rw [List.mem_ofFn] at h2; exact Or.inr h2

theorem maxF_fin (x : Fin n → Ext ℝ) (h1 : ∀ j, x j ≠ .nan) (h2 : ∀ j, x j ≠ .pinf) (h3 : ∃ j v, x j = .fin v) :
    ∃ v, Ext.maxF x = .fin v ∧ ∀ j v', x j = .fin v' → v' ≤ v := by
  obtain ⟨s1, s2, s3⟩ := maxF_spec x h1
  obtain ⟨j0, v0, hj0⟩ := h3
  rcases hm : Ext.maxF x with _ | _ | v | _
  · exact absurd hm s1
  · have := s3 j0; rw [hm, hj0] at this; simp [Ext.lt] at this
  · refine ⟨v, rfl, fun j v' hj => ?_⟩
    have := s3 j
    rw [hm, hj] at this
    simpa [Ext.lt] using this
  · rcases s2 with s | ⟨j, hj⟩
    · rw [hm] at s; simp at s
    · rw [hm] at hj; exact absurd hj (h2 j)

theorem sum_mem_nan {m : ℕ} (f : Fin m → Ext ℝ) (h : ∃ j, f j = .nan) : Ext.sum f = .nan := by
  have key : ∀ (l : List (Ext ℝ)), l.foldl (· + ·) (Ext.nan : Ext ℝ) = .nan := by
    intro l
    induction l with
    | nil => rfl
    | cons b l ih => exact ih
  have key2 : ∀ (l : List (Ext ℝ)) (a : Ext ℝ), Ext.nan ∈ l → l.foldl (· + ·) a = .nan := by
    intro l
    induction l with
    | nil => intro a h; simp at h
    | cons b l ih =>
      intro a h
      rw [List.foldl_cons]
      rcases List.mem_cons.1 h with h | h
      · subst h
        have : a + Ext.nan = Ext.nan := by cases a <;> rfl
        rw [this, key]
      · exact ih _ h
  obtain ⟨j, hj⟩ := h
  exact key2 _ _ (by rw [List.mem_ofFn]; exact ⟨j, hj⟩)

theorem softmax_all_nan (x : Fin n → Ext ℝ) (h : ∃ j, Ext.expF (x j - Ext.maxF x) = .nan) : softmax x = fun _ => .nan := by
  funext j
  unfold softmax
  rw [sum_mem_nan _ h]
  cases Ext.expF (x j - Ext.maxF x) <;> rfl

/-! ### The probabilities -/

/-- The Gibbs distribution: probabilities, zero exactly for the excluded points, with ratios given by the differences of the scores. -/
structure Spec.IsGibbs (score : Fin n → Option ℝ) (temperature : ℝ) (p : Fin n → ℝ) : Prop where
  nonneg : ∀ j, 0 ≤ p j
  total : ∑ j, p j = 1
  excluded : ∀ j, p j = 0 ↔ score j = none
  ratio : ∀ i j a b, score i = some a → score j = some b → p i = p j * Real.exp ((a - b) / temperature)

/-- The Gibbs distribution is determined by its specification. -/
theorem Spec.IsGibbs.unique {score : Fin n → Option ℝ} {T : ℝ} {p q : Fin n → ℝ} (hp : Spec.IsGibbs score T p) (hq : Spec.IsGibbs score T q) : p = q := by
  obtain ⟨j0, hj0⟩ : ∃ j, score j ≠ none := by
    by_contra h
    push Not at h
    have := hp.total
    rw [Finset.sum_eq_zero fun j _ => (hp.excluded j).2 (h j)] at this
    norm_num at this
  obtain ⟨b, hb⟩ := Option.ne_none_iff_exists'.1 hj0
  have hr : ∀ j, p j * q j0 = q j * p j0 := by
    intro j
    cases hj : score j with
    | none => rw [(hp.excluded j).2 hj, (hq.excluded j).2 hj]; ring
    | some a => rw [hp.ratio j j0 a b hj hb, hq.ratio j j0 a b hj hb]; ring
  have h1 : q j0 = p j0 := by
    have := Finset.sum_congr (rfl : (Finset.univ : Finset (Fin n)) = Finset.univ) fun j _ => hr j
    rw [← Finset.sum_mul, ← Finset.sum_mul, hp.total, hq.total] at this
    linarith
  have hne : p j0 ≠ 0 := fun h => hj0 ((hp.excluded j0).1 h)
  funext j
  have := hr j
  rw [h1] at this
  exact mul_right_cancel₀ hne this

/-- The score of a residual: none for `-inf`. -/
def Spec.scoreOf : Ext ℝ → Option ℝ
  | .fin v => some v
  | _ => none

theorem softmax_gibbs (x : Fin n → Ext ℝ) (h1 : ∀ j, x j ≠ .nan) (h2 : ∀ j, x j ≠ .pinf) (h3 : ∃ j v, x j = .fin v) :
    ∃ p : Fin n → ℝ, (softmax x = fun j => .fin (p j)) ∧ Spec.IsGibbs (fun j => Spec.scoreOf (x j)) 1 p := by
  obtain ⟨v, hv, hle⟩ := maxF_fin x h1 h2 h3
  let e : Fin n → ℝ := fun j => match x j with
    | .fin a => Real.exp (a - v)
    | _ => 0
  have he : ∀ j, Ext.expF (x j - Ext.maxF x) = .fin (e j) := by
    intro j
    rw [hv]
    simp only [e]
    rcases hx : x j with _ | _ | a | _
    · exact absurd hx (h1 j)
    · rfl
    · simp only [Ext.fin_sub_fin]
      rfl
    · exact absurd hx (h2 j)
  have he0 : ∀ j, 0 ≤ e j := by
    intro j
    simp only [e]
    split
    · exact (Real.exp_pos _).le
    · exact le_rfl
  have hez : ∀ j, e j = 0 ↔ Spec.scoreOf (x j) = none := by
    intro j
    simp only [e]
    rcases hx : x j with _ | _ | a | _ <;> simp [Spec.scoreOf, (Real.exp_pos _).ne']
  have hS : 0 < ∑ j, e j := by
    obtain ⟨j0, v0, hj0⟩ := h3
    refine Finset.sum_pos' (fun j _ => he0 j) ⟨j0, Finset.mem_univ _, lt_of_le_of_ne (he0 j0) (Ne.symm fun h => ?_)⟩
    rw [hez, hj0] at h
    simp [Spec.scoreOf] at h
  refine ⟨fun j => e j / ∑ l, e l, ?_, ?_, ?_, ?_, ?_⟩
  · funext j
    unfold softmax
    simp only [he, sum_fin, fin_div_fin hS.ne']
  · exact fun j => div_nonneg (he0 j) hS.le
  · rw [← Finset.sum_div, div_self hS.ne']
  · intro j
    rw [div_eq_zero_iff, or_iff_left hS.ne', hez]
  · intro i j a b hi hj
    have hxi : x i = .fin a := by
      rcases hx : x i with _ | _ | c | _ <;> simp [hx, Spec.scoreOf] at hi
      rw [hi]
    have hxj : x j = .fin b := by
      rcases hx : x j with _ | _ | c | _ <;> simp [hx, Spec.scoreOf] at hj
      rw [hj]
    have e1 : e i = Real.exp (a - v) := by simp only [e, hxi]
    have e2 : e j = Real.exp (b - v) := by simp only [e, hxj]
    rw [e1, e2, div_one, div_mul_eq_mul_div, ← Real.exp_add]
    congr 2
    ring

/-- C47: `softmax` gives a probability vector or NaN throughout, and the latter exactly if some entry is NaN or `+inf`, or none is finite. -/
theorem C47_softmax_dichotomy [NeZero n] (x : Fin n → Ext ℝ) :
    ((∀ j, x j ≠ .nan) ∧ (∀ j, x j ≠ .pinf) ∧ (∃ j v, x j = .fin v) ∧
      ∃ p : Fin n → ℝ, (softmax x = fun j => .fin (p j)) ∧ Spec.IsGibbs (fun j => Spec.scoreOf (x j)) 1 p) ∨
    (((∃ j, x j = .nan) ∨ (∃ j, x j = .pinf) ∨ ∀ j v, x j ≠ .fin v) ∧ softmax x = fun _ => .nan) := by
  have hpos : 0 < n := Nat.pos_of_ne_zero (NeZero.ne n)
  by_cases h1 : ∀ j, x j ≠ .nan
  · by_cases h2 : ∀ j, x j ≠ .pinf
    · by_cases h3 : ∃ j v, x j = .fin v
      · exact Or.inl ⟨h1, h2, h3, softmax_gibbs x h1 h2 h3⟩
      · right
        push Not at h3
        refine ⟨Or.inr (Or.inr h3), softmax_all_nan x ⟨⟨0, hpos⟩, ?_⟩⟩
        have hall : ∀ j, x j = .ninf := by
          intro j
          rcases hx : x j with _ | _ | a | _
          · exact absurd hx (h1 j)
          · rfl
          · exact absurd hx (h3 j a)
          · exact absurd hx (h2 j)
        have hm : Ext.maxF x = .ninf := by
          rcases (maxF_spec x h1).2.1 with h | ⟨j, hj⟩
          · exact h
          · rw [← hj, hall]
        rw [hm, hall]
        rfl
    · right
      push Not at h2
      refine ⟨Or.inr (Or.inl h2), softmax_all_nan x ?_⟩
      obtain ⟨j, hj⟩ := h2
      refine ⟨j, ?_⟩
      obtain ⟨s1, -, s3⟩ := maxF_spec x h1
      have hm : Ext.maxF x = .pinf := by
        have := s3 j
        rw [hj] at this
        rcases hm : Ext.maxF x with _ | _ | a | _
        · exact absurd hm s1
        · rw [hm] at this; simp [Ext.lt] at this
        · rw [hm] at this; simp [Ext.lt] at this
        · rfl
      rw [hm, hj]
      rfl
  · right
    push Not at h1
    refine ⟨Or.inl h1, softmax_all_nan x ?_⟩
    obtain ⟨j, hj⟩ := h1
    refine ⟨j, ?_⟩
    rw [hj]
    rfl

/-- C47: with a positive temperature, residuals that are numbers or `-inf` (the members of the coreset, if points are to be unique) and not all excluded give the Gibbs distribution:
excluded points have probability zero, all others positive probability, and the odds of two points are the exponential of the difference of their residuals over the temperature. -/
theorem C47_gibbs {T : ℝ} (hT : 0 < T) (r : Fin n → Ext ℝ) (h1 : ∀ j, r j ≠ .nan) (h2 : ∀ j, r j ≠ .pinf) (h3 : ∃ j v, r j = .fin v) :
    ∃ p : Fin n → ℝ, (herdingProbs T r = fun j => .fin (p j)) ∧ Spec.IsGibbs (fun j => Spec.scoreOf (r j)) T p := by
  have hd : ∀ j, r j / Ext.fin T = match r j with
      | .fin a => .fin (a / T)
      | b => b := by
    intro j
    rcases hx : r j with _ | _ | a | _
    · rfl
    · show (if (0 : ℝ) ≤ T then Ext.ninf else Ext.pinf) = _
      rw [if_pos hT.le]
    · simp only [fin_div_fin hT.ne']
    · show (if (0 : ℝ) ≤ T then Ext.pinf else Ext.ninf) = _
      rw [if_pos hT.le]
  have hs : ∀ j, Spec.scoreOf (r j / Ext.fin T) = (Spec.scoreOf (r j)).map (· / T) := by
    intro j
    rw [hd]
    rcases r j with _ | _ | a | _ <;> rfl
  obtain ⟨p, hp, hg⟩ := softmax_gibbs (fun j => r j / Ext.fin T)
    (fun j => by rw [hd]; rcases hx : r j with _ | _ | a | _ <;> simp_all)
    (fun j => by rw [hd]; rcases hx : r j with _ | _ | a | _ <;> simp_all)
    (by obtain ⟨j, v, hj⟩ := h3; exact ⟨j, v / T, by rw [hd, hj]⟩)
  refine ⟨p, hp, hg.nonneg, hg.total, fun j => ?_, fun i j a b hi hj => ?_⟩
  · rw [hg.excluded j, hs, Option.map_eq_none_iff]
  · rw [hg.ratio i j (a / T) (b / T) (by simp only [hs, hi, Option.map_some]) (by simp only [hs, hj, Option.map_some])]
    congr 2
    ring

open Spec in
example := C47_gibbs (n := 3) (T := 1 / 2) (by norm_num) ![.fin 1, .ninf, .fin 0] (by intro j; fin_cases j <;> simp) (by intro j; fin_cases j <;> simp) ⟨0, 1, rfl⟩

/-- C47: the choice approaches the deterministic one at low temperature: if the residual of one point exceeds all others by at least `gap`, then all others together have probability
at most `(n - 1) exp(-gap / T)`. -/
theorem C47_low_temperature {T : ℝ} (hT : 0 < T) (r : Fin n → Ext ℝ) (h1 : ∀ j, r j ≠ .nan) (h2 : ∀ j, r j ≠ .pinf) (best : Fin n) (a gap : ℝ)
    (hb : r best = .fin a) (hgap : ∀ j, j ≠ best → ∀ b, r j = .fin b → b + gap ≤ a) :
    ∃ p : Fin n → ℝ, (herdingProbs T r = fun j => .fin (p j)) ∧ 1 - p best ≤ (n - 1) * Real.exp (-gap / T) := by
  obtain ⟨p, hp, hg⟩ := C47_gibbs hT r h1 h2 ⟨best, a, hb⟩
  refine ⟨p, hp, ?_⟩
  have hle : ∀ j, p j ≤ 1 := by
    intro j
    rw [← hg.total]
    exact Finset.single_le_sum (fun l _ => hg.nonneg l) (Finset.mem_univ j)
  have hj : ∀ j ∈ Finset.univ.erase best, p j ≤ Real.exp (-gap / T) := by
    intro j hj
    have hne := Finset.ne_of_mem_erase hj
    rcases hx : r j with _ | _ | b | _
    · exact absurd hx (h1 j)
    · rw [(hg.excluded j).2 (by rw [hx]; rfl)]; exact (Real.exp_pos _).le
    · rw [hg.ratio j best b a (by rw [hx]; rfl) (by rw [hb]; rfl)]
      have hexp : Real.exp ((b - a) / T) ≤ Real.exp (-gap / T) := by
        apply Real.exp_le_exp.2
        apply div_le_div_of_nonneg_right _ hT.le
        linarith [hgap j hne b hx]
      calc p best * Real.exp ((b - a) / T) ≤ 1 * Real.exp ((b - a) / T) :=
            mul_le_mul_of_nonneg_right (hle best) (Real.exp_pos _).le
        _ ≤ _ := by rw [one_mul]; exact hexp
    · exact absurd hx (h2 j)
  have hsum := Finset.sum_le_card_nsmul _ _ _ hj
  have htot := hg.total
  rw [← Finset.add_sum_erase _ _ (Finset.mem_univ best)] at htot
  rw [Finset.card_erase_of_mem (Finset.mem_univ best), Finset.card_univ, Fintype.card_fin, nsmul_eq_mul,
    Nat.cast_sub (by have := best.2; omega), Nat.cast_one] at hsum
  linarith

/-- C47: a temperature of zero (which nothing forbids) gives NaN for every dataset. -/
theorem C47_zero_temperature [NeZero n] (r : Fin n → Ext ℝ) : herdingProbs 0 r = fun _ => .nan := by
  rcases C47_softmax_dichotomy (fun j => r j / Ext.fin 0) with ⟨-, -, ⟨j, v, hj⟩, -⟩ | ⟨-, h⟩
  · exfalso
    rcases hx : r j with _ | _ | a | _ <;> rw [hx] at hj
    · exact absurd hj (by intro h; cases h)
    · exact absurd hj (by show (if (0 : ℝ) ≤ 0 then Ext.ninf else Ext.pinf) ≠ _; simp)
    · have : (Ext.fin a / Ext.fin 0 : Ext ℝ) = if (0 : ℝ) = 0 then (if a = 0 then .nan else if 0 < a then .pinf else .ninf) else .fin (a / 0) := rfl
      rw [this] at hj
      split_ifs at hj <;> simp_all
    · exact absurd hj (by show (if (0 : ℝ) ≤ 0 then Ext.pinf else Ext.ninf) ≠ _; simp)
  · exact h

/-- C47: a negative temperature (which nothing forbids) turns the preference round: among numbers, the smaller residual is the likelier. With a member excluded by `-inf` all is NaN. -/
theorem C47_negative_temperature [NeZero n] {T : ℝ} (hT : T < 0) (r : Fin n → Ext ℝ) :
    ((∀ j, ∃ v, r j = .fin v) → ∃ p : Fin n → ℝ, (herdingProbs T r = fun j => .fin (p j)) ∧ ∑ j, p j = 1 ∧
      ∀ i j a b, r i = .fin a → r j = .fin b → (p i < p j ↔ b < a)) ∧
    ((∃ j, r j = .ninf) → herdingProbs T r = fun _ => .nan) := by
  constructor
  · intro hf
    choose v hv using hf
    have hd : ∀ j, r j / Ext.fin T = .fin (v j / T) := fun j => by rw [hv, fin_div_fin hT.ne]
    obtain ⟨p, hp, hg⟩ := softmax_gibbs (fun j => r j / Ext.fin T) (fun j => by rw [hd]; simp) (fun j => by rw [hd]; simp)
      ⟨⟨0, Nat.pos_of_ne_zero (NeZero.ne n)⟩, _, hd _⟩
    refine ⟨p, hp, hg.total, fun i j a b hi hj => ?_⟩
    have hrat := hg.ratio i j (a / T) (b / T) (by simp only [hi, fin_div_fin hT.ne]; rfl) (by simp only [hj, fin_div_fin hT.ne]; rfl)
    have hpj : 0 < p j := lt_of_le_of_ne (hg.nonneg j) (Ne.symm fun h => by
      have := (hg.excluded j).1 h
      simp only [hj, fin_div_fin hT.ne] at this
      cases this)
    rw [hrat, mul_lt_iff_lt_one_right hpj, Real.exp_lt_one_iff, div_one, ← sub_div]
    constructor
    · intro h
      by_contra hba
      have : 0 ≤ (a - b) / T := div_nonneg_of_nonpos (by linarith) hT.le
      linarith
    · intro h
      exact div_neg_of_pos_of_neg (by linarith) hT
  · rintro ⟨j, hj⟩
    rcases C47_softmax_dichotomy (fun j => r j / Ext.fin T) with ⟨-, h, -⟩ | ⟨-, h⟩
    · exfalso
      apply h j
      rw [hj]
      show (if (0 : ℝ) ≤ T then Ext.ninf else Ext.pinf) = _
      rw [if_neg (not_le.2 hT)]
    · exact h

example := (C47_negative_temperature (n := 2) (T := -1) (by norm_num) ![.fin 1, .ninf]).2 ⟨1, rfl⟩

/-! ### The draw -/

/-- Contract of `jr.choice`: from a probability vector it draws an index of positive probability. -/
def SingleChoiceContract (choice : SingleChoice n) : Prop :=
  ∀ i (p : Fin n → ℝ), (∀ j, 0 ≤ p j) → ∑ j, p j = 1 → ∃ j : Fin n, choice i (fun j => .fin (p j)) = (j : ℤ) ∧ 0 < p j

/-- C47: with positive weights and a positive temperature the draw never picks an excluded point; so the guarantees proved for herding (valid, distinct indices) hold in probabilistic mode
on the strength of the contract of `jr.choice` alone. -/
theorem C47_draw_contract (choice : SingleChoice n) (hc : SingleChoiceContract choice) {T : ℝ} (hT : 0 < T) (w : Fin n → ℝ) (hw : ∀ j, 0 < w j) :
    DrawContract (some (softmaxDraw choice T)) w := by
  rintro draw hd
  cases hd
  refine ⟨hw, fun i r h1 h2 h3 => ?_⟩
  obtain ⟨p, hp, hg⟩ := C47_gibbs hT r h1 h2 h3
  obtain ⟨j, hj, hpos⟩ := hc i p hg.nonneg hg.total
  rcases hx : r j with _ | _ | a | _
  · exact absurd hx (h1 j)
  · rw [(hg.excluded j).2 (by rw [hx]; rfl)] at hpos; exact absurd hpos (lt_irrefl _)
  · exact ⟨j, a, by unfold softmaxDraw; rw [hp, hj], hx⟩
  · exact absurd hx (h2 j)

/-! ### Rows of weight zero -/

section
variable {X : Type*} [Zero X] [NeZero n]

theorem scatterSet_self {m : ℕ} (ord : List (Fin m)) (a : Fin n → Ext ℝ) (idx : Fin m → ℤ) : scatterSet ord a idx (fun t => a (gatherIdx n (idx t))) = a := by
  have hidx : ∀ t j, scatterIdx n (idx t) = some j → gatherIdx n (idx t) = j := by
    intro t j h
    unfold scatterIdx at h
    simp only at h
    split_ifs at h with h1 h2 h2
    · cases h
      unfold gatherIdx
      apply Fin.ext
      simp only [if_pos h1]
      omega
    · cases h
      unfold gatherIdx
      apply Fin.ext
      simp only [if_neg h1]
      omega
  unfold scatterSet
  generalize hf : (fun (a_1 : Fin n → Ext ℝ) (t : Fin m) => match scatterIdx n (idx t) with
        | some j => Function.update a_1 j (a (gatherIdx n (idx t)))
        | none => a_1) = f
  have step : ∀ t, f a t = a := by
    intro t
    rw [← hf]
    simp only
    split
    · rename_i j hj
      rw [hidx t j hj, Function.update_eq_self]
    · rfl
  induction ord with
  | nil => rfl
  | cons t l ih => rw [List.foldl_cons, step, ih]

/-- C47: a single row without positive weight makes probabilistic herding blind: every draw is made with NaN for all probabilities, so that the coreset consists of whatever the
generator returns for those, whatever the data, the kernel, the weights, the temperature and the cached state are. -/
theorem C47_zero_weight_blind (big : ℝ) (k : X → X → ℝ) (choice : SingleChoice n) (T : ℝ) (unique : Bool) (bs : PyTree (Option ℤ)) (size : ℕ) (pre : Data n X ℝ)
    (state : Option (List ℝ)) (ord : List (Fin (size + (size - size)))) (hz : ∃ j, ¬ 0 < pre.weights j) (r : Data size ℤ ℝ × List ℝ)
    (hr : herdingReduce big k (some (softmaxDraw choice T)) unique bs size pre state ord = .ok r) :
    r.1.data = fun t : Fin size => choice (t : ℕ) fun _ => .nan := by
  obtain ⟨j0, hj0⟩ := hz
  unfold herdingReduce initialCoresubset at hr
  split_ifs at hr with hsz
  simp only [herdingRefine] at hr
  cases hrm : cachedRowMean big k pre bs state with
  | error e => rw [hrm] at hr; cases hr
  | ok rm =>
    rw [hrm] at hr
    simp only [greedySelection] at hr
    cases hip : initPenalty big k pre bs (padIndices (⟨fun _ => 0, fun _ => 0⟩ : Data size ℤ ℝ) size) with
    | error e => rw [hip] at hr; cases hr
    | ok ps =>
      obtain ⟨pen, sz⟩ := ps
      rw [hip] at hr
      simp only [Except.ok.injEq] at hr
      rw [← hr]
      funext t
      simp only
      set p := padIndices (⟨fun _ => 0, fun _ => 0⟩ : Data size ℤ ℝ) size with hp
      have hcw : ∀ t, ¬ p.weights t > 0 := by
        intro t
        have : p.weights t = 0 := by
          simp only [hp, padIndices, zeroPad]
          cases t using Fin.addCases <;> simp
        rw [this]
        exact lt_irrefl _
      have hstep : ∀ (i : Fin (size + (size - size))) (s : GreedyState n (size + (size - size)) ℝ),
          (greedyBody k pre.data pre.weights unique ord p.weights (herdingSelect (some (softmaxDraw choice T)) (asVec n rm)) i s).idx
            = Function.update s.idx i (choice i fun _ => .nan) := by
        intro i s
        unfold greedyBody
        simp only
        congr 1
        unfold herdingSelect softmaxDraw
        simp only
        congr 1
        have hnan : ∀ pn : Fin n → Ext ℝ, maskedPenalty pre.weights unique ord p.weights i s.idx pn j0 = .nan := by
          intro pn
          have hv : (fun j => if pre.weights j > 0 then pn j else Ext.nan) j0 = .nan := if_neg hj0
          unfold maskedPenalty
          simp only [hcw, and_false, if_false]
          cases unique
          · exact hv
          · rw [if_pos rfl, scatterSet_self]
            exact hv
        unfold herdingProbs
        rcases C47_softmax_dichotomy (fun j => herdingResidual (asVec n rm) (maskedPenalty pre.weights unique ord p.weights i s.idx
            (subtractOwn k pre.data p.weights i s)) (if p.weights i > 0 then s.size else s.size + 1) j / Ext.fin T) with ⟨h, -⟩ | ⟨-, h⟩
        · exfalso
          apply h j0
          unfold herdingResidual
          rw [hnan]
          rfl
        · exact h
      have hloop := forLoop_inv (P := fun i (s : GreedyState n (size + (size - size)) ℝ) =>
          ∀ t : Fin (size + (size - size)), (t : ℕ) < i → s.idx t = choice t fun _ => .nan) size
        (fun i => greedyBody k pre.data pre.weights unique ord p.weights (herdingSelect (some (softmaxDraw choice T)) (asVec n rm)) (i.castLE (out_le_padded size size)))
        ⟨p.data, pen, sz⟩ (fun t ht => absurd ht (by omega)) (by
          intro i s hs t ht
          rw [hstep]
          by_cases h : t = i.castLE (out_le_padded size size)
          · rw [h, Function.update_self]
          · rw [Function.update_of_ne h]
            refine hs t ?_
            have : (t : ℕ) ≠ i := fun hh => h (Fin.ext hh)
            omega)
      exact hloop (t.castLE _) t.2

/-- C47: so two datasets of the same length, each with one row without positive weight, give the same coreset in probabilistic mode, whatever they contain. -/
theorem C47_blind_to_data {X' : Type*} [Zero X'] (big big' : ℝ) (k : X → X → ℝ) (k' : X' → X' → ℝ) (choice : SingleChoice n) (T T' : ℝ) (unique unique' : Bool) (bs bs' : PyTree (Option ℤ))
    (size : ℕ) (pre : Data n X ℝ) (pre' : Data n X' ℝ) (state state' : Option (List ℝ)) (ord ord' : List (Fin (size + (size - size)))) (hz : ∃ j, ¬ 0 < pre.weights j)
    (hz' : ∃ j, ¬ 0 < pre'.weights j) (r r' : Data size ℤ ℝ × List ℝ)
    (hr : herdingReduce big k (some (softmaxDraw choice T)) unique bs size pre state ord = .ok r)
    (hr' : herdingReduce big' k' (some (softmaxDraw choice T')) unique' bs' size pre' state' ord' = .ok r') :
    r.1.data = r'.1.data := by
  rw [C47_zero_weight_blind big k choice T unique bs size pre state ord hz r hr, C47_zero_weight_blind big' k' choice T' unique' bs' size pre' state' ord' hz' r' hr']

/-- Reduction does not raise for a valid block size and a size between one and the number of rows. -/
theorem herdingReduce_ok (big : ℝ) (k : X → X → ℝ) (prob : Option (Draw n ℝ)) (unique : Bool) (bs : PyTree (Option ℤ)) (hbs : ValidBlock bs) (size : ℕ) (hs : 0 < size)
    (hsz : size ≤ n) (pre : Data n X ℝ) (state : Option (List ℝ)) (ord : List (Fin (size + (size - size)))) :
    ∃ r, herdingReduce big k prob unique bs size pre state ord = .ok r := by
  have hrm : ∃ rm, cachedRowMean big k pre bs state = Except.ok rm := by
    cases state with
    | some l => exact ⟨l, rfl⟩
    | none =>
      obtain ⟨l, hl, -⟩ := (C05_mean_errors big k pre pre .zero bs).2.1 hbs (NeZero.pos n) (NeZero.pos n)
      exact ⟨l, hl⟩
  obtain ⟨rm, hrm⟩ := hrm
  set c := padIndices (⟨fun _ => 0, fun _ => 0⟩ : Data size ℤ ℝ) size with hc
  obtain ⟨l, hl, -⟩ := (C05_mean_errors big k (Data.ofArray pre.data) (⟨fun t => pre.data (gatherIdx n (c.data t)), c.weights⟩ : Data _ X ℝ) .one bs).2.1 hbs (NeZero.pos n) (by omega)
  have hip : ∃ ps, initPenalty big k pre bs c = .ok ps := by
    unfold initPenalty
    simp only [hl]
    exact ⟨_, rfl⟩
  obtain ⟨ps, hip⟩ := hip
  unfold herdingReduce initialCoresubset
  rw [if_neg (by omega)]
  simp only [herdingRefine, hrm, greedySelection]
  rw [← hc, hip]
  exact ⟨_, rfl⟩

/-- C47: in particular `unique=True` promises nothing then: if the generator returns index zero for NaN probabilities, the coreset is row zero `size` times over. -/
theorem C47_zero_weight_repeats (big : ℝ) (k : X → X → ℝ) (choice : SingleChoice n) (h0 : ∀ i, choice i (fun _ => .nan) = 0) (T : ℝ) (bs : PyTree (Option ℤ)) (hbs : ValidBlock bs)
    (size : ℕ) (hs : 0 < size) (hsz : size ≤ n) (pre : Data n X ℝ) (state : Option (List ℝ)) (ord : List (Fin (size + (size - size)))) (hz : ∃ j, ¬ 0 < pre.weights j) :
    ∃ r, herdingReduce big k (some (softmaxDraw choice T)) true bs size pre state ord = .ok r ∧ ∀ t, r.1.data t = 0 := by
  obtain ⟨r, hr⟩ := herdingReduce_ok big k (some (softmaxDraw choice T)) true bs hbs size hs hsz pre state ord
  refine ⟨r, hr, fun t => ?_⟩
  rw [C47_zero_weight_blind big k choice T true bs size pre state ord hz r hr]
  exact h0 _

end

/-! ### Cases -/

/-- A choice that obeys the contract, and returns zero for NaN: the first index of positive probability. -/
noncomputable def firstPositive : SingleChoice n := fun _ p => by
  classical
  exact ((List.finRange n).find? fun j => decide (∃ v, p j = .fin v ∧ 0 < v)).elim 0 fun j => (j : ℤ)

theorem firstPositive_contract : SingleChoiceContract (firstPositive (n := n)) := by
  classical
  intro i p h0 h1
  have hex : ∃ j, 0 < p j := by
    by_contra h
    push Not at h
    rw [Finset.sum_eq_zero fun j _ => le_antisymm (h j) (h0 j)] at h1
    norm_num at h1
  unfold firstPositive
  cases hf : (List.finRange n).find? fun j => decide (∃ v, (Ext.fin (p j) : Ext ℝ) = .fin v ∧ 0 < v) with
  | none =>
    exfalso
    rw [List.find?_eq_none] at hf
    obtain ⟨j, hj⟩ := hex
    exact hf j (List.mem_finRange j) (by simpa using hj)
  | some j =>
    have := List.find?_some hf
    refine ⟨j, by simp, by simpa using this⟩

theorem firstPositive_nan (i : ℕ) : firstPositive (n := n) i (fun _ => .nan) = 0 := by
  classical
  unfold firstPositive
  have : ((List.finRange n).find? fun _ => decide (∃ v, (Ext.nan : Ext ℝ) = .fin v ∧ 0 < v)) = none := by
    rw [List.find?_eq_none]
    simp
  rw [this]
  rfl

/-- Three rows of which the last has weight zero, as the padding of map-reduce has: the first row is returned twice. -/
example : ∃ r, herdingReduce 1000 (fun a b : ℝ => a * b) (some (softmaxDraw firstPositive 1)) true (.leaf none) 2 ⟨![1, 2, 0], ![1, 1, 0]⟩ none [0, 1] = .ok r ∧
    ∀ t, r.1.data t = 0 :=
  C47_zero_weight_repeats 1000 _ firstPositive firstPositive_nan 1 (.leaf none) (Or.inl rfl) 2 (by norm_num) (by norm_num) _ none _ ⟨2, by simp⟩

/-- Without that row the guarantee of distinct points holds. -/
example : ∃ (f : Fin 2 → Fin 2) (st : List ℝ),
    herdingReduce 1000 (fun a b : ℝ => a * b) (some (softmaxDraw firstPositive 1)) true (.leaf none) 2 ⟨![1, 2], ![1, 1]⟩ none [0, 1]
      = .ok (⟨fun t => (f t : ℤ), fun _ => 1⟩, st) ∧ Function.Injective f := by
  have hw : ∀ j, 0 < (![1, 1] : Fin 2 → ℝ) j := by intro j; fin_cases j <;> simp
  obtain ⟨f, st, h1, -, h3⟩ := C11_reduce_valid 1000 (fun a b : ℝ => a * b) (some (softmaxDraw firstPositive 1)) true (.leaf none) (Or.inl rfl) 2 (by norm_num)
    ⟨![1, 2], ![1, 1]⟩ (C47_draw_contract firstPositive firstPositive_contract one_pos _ hw) none [0, 1] (by decide) (by
      unfold Spec.PosCount
      rw [Finset.filter_true_of_mem fun j _ => hw j]
      simp)
  exact ⟨f, st, h1, h3 rfl⟩

/-- Residuals that meet the hypotheses of the theorems on probabilities. -/
example : ∃ p : Fin 3 → ℝ, (herdingProbs (1 / 2) ![.fin 1, .ninf, .fin 0] = fun j => .fin (p j)) ∧ 1 - p 0 ≤ (3 - 1) * Real.exp (-1 / (1 / 2)) := by
  have := C47_low_temperature (n := 3) (T := 1 / 2) (by norm_num) ![.fin 1, .ninf, .fin 0] (by intro j; fin_cases j <;> simp) (by intro j; fin_cases j <;> simp) 0 1 1 rfl
    (by intro j hj b hb; fin_cases j <;> simp_all)
  simpa using this

/-- Two sets of three rows, with different kernels, temperatures and weights and one row of weight zero each: the points selected agree. -/
example : ∃ r r', herdingReduce 1000 (fun a b : ℝ => a * b) (some (softmaxDraw firstPositive 1)) true (.leaf none) 2 ⟨![1, 2, 0], ![1, 1, 0]⟩ none [0, 1] = .ok r ∧
    herdingReduce 1000 (fun a b : ℝ => a + b) (some (softmaxDraw firstPositive 5)) false (.leaf none) 2 ⟨![4, 7, 2], ![0, 1, 3]⟩ none [0, 1] = .ok r' ∧
    r.1.data = (fun t : Fin 2 => firstPositive (n := 3) t fun _ => .nan) ∧ r.1.data = r'.1.data := by
  obtain ⟨r, hr⟩ := herdingReduce_ok 1000 (fun a b : ℝ => a * b) (some (softmaxDraw firstPositive 1)) true (.leaf none) (Or.inl rfl) 2 (by norm_num) (by norm_num) (⟨![1, 2, 0], ![1, 1, 0]⟩ : Data 3 ℝ ℝ) none [0, 1]
  obtain ⟨r', hr'⟩ := herdingReduce_ok 1000 (fun a b : ℝ => a + b) (some (softmaxDraw firstPositive 5)) false (.leaf none) (Or.inl rfl) 2 (by norm_num) (by norm_num) (⟨![4, 7, 2], ![0, 1, 3]⟩ : Data 3 ℝ ℝ) none [0, 1]
  exact ⟨r, r', hr, hr', C47_zero_weight_blind _ _ _ _ _ _ _ _ _ _ ⟨2, by simp⟩ r hr,
    C47_blind_to_data _ _ _ _ _ _ _ _ _ _ _ _ _ _ _ _ _ _ ⟨2, by simp⟩ ⟨0, by simp⟩ r r' hr hr'⟩

end Coreax
