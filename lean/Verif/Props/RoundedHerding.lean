import Verif.Model.RoundedHerding
import Verif.Props.Rounding
import Verif.Props.ApproxHerding

/-!
# C66: kernel herding with rounded arithmetic
-/

set_option linter.unusedSectionVars false

namespace Coreax

open Greedy Spec

/-- At every step the point chosen is allowed, and its exact residual is within `δ` of the greatest one. -/
def Spec.NearlyGreedy {X : Type*} {n : ℕ} (k : X → X → ℝ) (x : Fin n → X) (w : Fin n → ℝ) (unique : Bool) (δ : ℝ) {size : ℕ} (f : Fin size → Fin n) : Prop :=
  ∀ i, 0 < w (f i) ∧ (unique = true → ∀ t, t < i → f t ≠ f i) ∧
    ∀ j, 0 < w j → (unique = true → ∀ t, t < i → f t ≠ j) →
      (avg w fun l => k (x l) (x j)) - (∑ t, if t < i then k (x j) (x (f t)) else 0) / ((i : ℕ) + 1 : ℝ)
        ≤ (avg w fun l => k (x l) (x (f i))) - (∑ t, if t < i then k (x (f i)) (x (f t)) else 0) / ((i : ℕ) + 1 : ℝ) + δ

section
variable {X : Type*} [Zero X] {n : ℕ} [NeZero n]

theorem scatterSet_same {m : ℕ} {α : Type*} (ord : List (Fin m)) (a : Fin n → α) (idx : Fin m → ℤ) :
    scatterSet ord a idx (fun t => a (gatherIdx n (idx t))) = a := by
  have key : ∀ i : ℤ, ∀ j, scatterIdx n i = some j → gatherIdx n i = j := by
    intro i j h
    unfold scatterIdx at h
    unfold gatherIdx
    simp only at h ⊢
    by_cases hc : 0 ≤ (if i < 0 then i + (n : ℤ) else i) ∧ (if i < 0 then i + (n : ℤ) else i) < n
    · rw [dif_pos hc, Option.some.injEq] at h
      rw [← h]
      apply Fin.ext
      simp only
      omega
    · rw [dif_neg hc] at h
      cases h
  unfold scatterSet
  induction ord with
  | nil => rfl
  | cons t l ih =>
    rw [List.foldl_cons]
    rcases hj : scatterIdx n (idx t) with _ | j
    · exact ih
    · have e := key _ _ hj
      simp only [e, Function.update_eq_self]
      exact ih

/-- Without points to be replaced the mask only hides the rows of non-positive weight; the points already chosen have an infinite penalty. -/
theorem maskedPenalty_fresh {m : ℕ} (w : Fin n → ℝ) (unique : Bool) (ord : List (Fin m)) (i : Fin m) (idx : Fin m → ℤ) (pen : Fin n → Ext ℝ) :
    maskedPenalty w unique ord (fun _ => (0 : ℝ)) i idx pen = fun j => if 0 < w j then pen j else Ext.nan := by
  unfold maskedPenalty
  simp only [gt_iff_lt, lt_irrefl, and_false, if_false]
  split_ifs
  · exact scatterSet_same ord _ idx
  · rfl

/-- The bound of the error of a residual after at most `Q` roundings of its two terms. -/
noncomputable def residualError (u R : ℝ) (Q : ℕ) : ℝ := (2 * (1 / (1 - u) ^ Q - 1) + u * (1 / (1 - u) ^ Q)) * R

variable {u : ℝ} {o : FloatOps ℝ}

theorem residual_error (hu0 : 0 ≤ u) (hu : u < 1) (ho : Rounding u o) {Q : ℕ} {a b a' b' R : ℝ} (ha0 : 0 ≤ a) (hb0 : 0 ≤ b) (ha : a ≤ R) (hb : b ≤ R)
    (h1 : Near u Q a a') (h2 : Near u Q b b') : |o.sub a' b' - (a - b)| ≤ residualError u R Q := by
  have hp : 0 < (1 - u) ^ Q := pow_pos (by linarith) _
  have hβ : 1 ≤ 1 / (1 - u) ^ Q := by
    rw [le_div_iff₀ hp, one_mul]
    exact pow_le_one₀ (by linarith) (by linarith)
  set β := 1 / (1 - u) ^ Q with hβd
  have ea := Near.abs_le hu0 hu ha0 h1
  have eb := Near.abs_le hu0 hu hb0 h2
  have na := Near.nonneg hu ha0 h1
  have nb := Near.nonneg hu hb0 h2
  have ua : a' ≤ β * R := by
    have : a' ≤ a / (1 - u) ^ Q := by rw [le_div_iff₀ hp, mul_comm]; exact h1.2
    calc a' ≤ a / (1 - u) ^ Q := this
      _ = β * a := by rw [hβd]; ring
      _ ≤ β * R := mul_le_mul_of_nonneg_left ha (by linarith)
  have ub : b' ≤ β * R := by
    have : b' ≤ b / (1 - u) ^ Q := by rw [le_div_iff₀ hp, mul_comm]; exact h2.2
    calc b' ≤ b / (1 - u) ^ Q := this
      _ = β * b := by rw [hβd]; ring
      _ ≤ β * R := mul_le_mul_of_nonneg_left hb (by linarith)
  have hd : |a' - b'| ≤ β * R := abs_le.2 ⟨by linarith, by linarith⟩
  have hs := (ho.sub a' b').trans (mul_le_mul_of_nonneg_left hd hu0)
  have e1 : (β - 1) * a ≤ (β - 1) * R := mul_le_mul_of_nonneg_left ha (by linarith)
  have e2 : (β - 1) * b ≤ (β - 1) * R := mul_le_mul_of_nonneg_left hb (by linarith)
  have e3 : o.sub a' b' - (a - b) = (o.sub a' b' - (a' - b')) + ((a' - a) - (b' - b)) := by ring
  rw [e3]
  calc |(o.sub a' b' - (a' - b')) + ((a' - a) - (b' - b))|
      ≤ |o.sub a' b' - (a' - b')| + (|a' - a| + |b' - b|) := (abs_add_le _ _).trans (add_le_add le_rfl (abs_sub _ _))
    _ ≤ u * (β * R) + ((β - 1) * R + (β - 1) * R) := by linarith
    _ = residualError u R Q := by unfold residualError; ring

/-- The state of the loop after `i` steps. -/
structure RoundInv (u : ℝ) (q : ℕ) (k : X → X → ℝ) (x : Fin n → X) (w : Fin n → ℝ) (unique : Bool) (δ : ℝ) {m : ℕ} (i : ℕ) (s : GreedyState n m ℝ) (g : ℕ → Fin n) : Prop where
  idx : ∀ t : Fin m, (t : ℕ) < i → s.idx t = ((g t : Fin n) : ℤ)
  size : s.size = i
  chosen : ∀ j, (unique = true ∧ ∃ t < i, g t = j) → s.pen j = Ext.pinf
  other : ∀ j, ¬ (unique = true ∧ ∃ t < i, g t = j) → ∃ p, s.pen j = Ext.fin p ∧ Near u (q + i) (∑ t ∈ Finset.range i, k (x j) (x (g t))) p
  step : ∀ t < i, 0 < w (g t) ∧ (unique = true → ∀ r < t, g r ≠ g t) ∧
    ∀ j, 0 < w j → (unique = true → ∀ r < t, g r ≠ j) →
      Rate.meanAt k x w j - (∑ r ∈ Finset.range t, k (x j) (x (g r))) / ((t : ℝ) + 1)
        ≤ Rate.meanAt k x w (g t) - (∑ r ∈ Finset.range t, k (x (g t)) (x (g r))) / ((t : ℝ) + 1) + δ

theorem roundInv_step (hu0 : 0 ≤ u) (hu : u < 1) (ho : Rounding u o) (k k' : X → X → ℝ) (q : ℕ) (hk0 : ∀ a b, 0 ≤ k a b)
    (hk : ∀ a b, Near u q (k a b) (k' a b)) (x : Fin n → X) (w : Fin n → ℝ) (hw0 : ∀ j, 0 ≤ w j) (hw : 0 < ∑ j, w j) (R : ℝ) (hR : ∀ i j, k (x i) (x j) ≤ R)
    (unique : Bool) {m : ℕ} (hen : if unique then PosCount w m else ∃ j, 0 < w j) (ord : List (Fin m)) (rm : Fin n → ℝ) (P : ℕ)
    (hrm : ∀ j, Near u P (Rate.meanAt k x w j) (rm j)) (Q : ℕ) (hP : P ≤ Q) (hQ : q + m ≤ Q) (i : Fin m) (s : GreedyState n m ℝ) (g : ℕ → Fin n)
    (h : RoundInv u q k x w unique (2 * residualError u R Q) i s g) :
    ∃ g', RoundInv u q k x w unique (2 * residualError u R Q) (i + 1) (flHerdingBody o k' x w unique ord rm i s) g' := by
  classical
  have hR0 : ∀ j, 0 ≤ Rate.meanAt k x w j ∧ Rate.meanAt k x w j ≤ R := by
    intro j
    unfold Rate.meanAt avg
    refine ⟨div_nonneg (Finset.sum_nonneg fun l _ => mul_nonneg (hw0 l) (hk0 _ _)) hw.le, ?_⟩
    rw [div_le_iff₀ hw, Finset.mul_sum]
    exact Finset.sum_le_sum fun l _ => by rw [mul_comm]; exact mul_le_mul_of_nonneg_right (hR l j) (hw0 l)
  have hip : (0 : ℝ) < (i : ℕ) + 1 := by positivity
  -- the residuals
  set mp := maskedPenalty w unique ord (fun _ => (0 : ℝ)) i s.idx s.pen with hmp
  have hmpj : ∀ j, mp j = if 0 < w j then s.pen j else Ext.nan := fun j => by rw [hmp, maskedPenalty_fresh]
  set res := flResidual o rm mp (s.size + 1) with hres
  have hS0 : ∀ j, 0 ≤ ∑ t ∈ Finset.range i, k (x j) (x (g t)) := fun j => Finset.sum_nonneg fun t _ => hk0 _ _
  have hSR : ∀ j, (∑ t ∈ Finset.range i, k (x j) (x (g t))) / ((i : ℕ) + 1) ≤ R := by
    intro j
    rw [div_le_iff₀ hip]
    have h1 : ∑ t ∈ Finset.range i, k (x j) (x (g t)) ≤ ∑ t ∈ Finset.range (i : ℕ), R := Finset.sum_le_sum fun t _ => hR _ _
    rw [Finset.sum_const, Finset.card_range, nsmul_eq_mul] at h1
    have := (hR0 j).1.trans (hR0 j).2
    nlinarith
  have hfin : ∀ j, 0 < w j → (unique = true → ∀ t < (i : ℕ), g t ≠ j) → ∃ v, res j = Ext.fin v ∧
      |v - (Rate.meanAt k x w j - (∑ t ∈ Finset.range i, k (x j) (x (g t))) / ((i : ℕ) + 1))| ≤ residualError u R Q := by
    intro j hj hju
    obtain ⟨p, hp1, hp2⟩ := h.other j (by rintro ⟨h1, t, ht, h2⟩; exact hju h1 t ht h2)
    refine ⟨o.sub (rm j) (o.div p ((s.size + 1 : ℕ) : ℝ)), ?_, ?_⟩
    · rw [hres]
      simp only [flResidual, hmpj, if_pos hj, hp1, flExt]
    · rw [h.size]
      refine residual_error hu0 hu ho (hR0 j).1 (div_nonneg (hS0 j) hip.le) (hR0 j).2 (hSR j) (Near.mono hu0 hu (hR0 j).1 (hrm j) hP) ?_
      have h1 : Near u (q + i + 0) ((∑ t ∈ Finset.range i, k (x j) (x (g t))) / ((i : ℕ) + 1)) (p / ((i : ℕ) + 1)) :=
        Near.div hu (hS0 j) hip hp2 (Near.refl u _)
      have h2 : Near u (q + i + 0 + 1) ((∑ t ∈ Finset.range i, k (x j) (x (g t))) / ((i : ℕ) + 1)) (o.div p (((i : ℕ) + 1 : ℕ) : ℝ)) := by
        refine Near.round_after hu0 hu (div_nonneg (hS0 j) hip.le) h1 ?_
        push_cast
        exact ho.div _ _ hip.ne'
      exact Near.mono hu0 hu (div_nonneg (hS0 j) hip.le) h2 (by have := i.2; omega)
  have hdp : (Ext.pinf : Ext ℝ) / Ext.fin ((s.size + 1 : ℕ) : ℝ) = Ext.pinf := by
    change Ext.div _ _ = _
    simp only [Ext.div]
    rw [if_pos (by positivity)]
  have hnot : ∀ j v, res j = Ext.fin v → 0 < w j ∧ (unique = true → ∀ t < (i : ℕ), g t ≠ j) := by
    intro j v hv
    have hwj : 0 < w j := by
      by_contra hc
      rw [hres] at hv
      simp only [flResidual, hmpj, if_neg hc, flExt] at hv
      change Ext.add (Ext.fin _) (Ext.neg (Ext.div Ext.nan _)) = _ at hv
      simp [Ext.div, Ext.neg, Ext.add] at hv
    refine ⟨hwj, fun hun t ht hgt => ?_⟩
    rw [hres] at hv
    simp only [flResidual, hmpj, if_pos hwj, h.chosen j ⟨hun, t, ht, hgt⟩, flExt] at hv
    rw [hdp] at hv
    change Ext.add (Ext.fin _) (Ext.neg Ext.pinf) = _ at hv
    simp [Ext.neg, Ext.add] at hv
  have hpinf : ∀ j, res j ≠ Ext.pinf := by
    intro j hv
    by_cases hj : 0 < w j
    · by_cases hju : unique = true ∧ ∃ t < (i : ℕ), g t = j
      · rw [hres] at hv
        simp only [flResidual, hmpj, if_pos hj, h.chosen j hju, flExt] at hv
        rw [hdp] at hv
        change Ext.add (Ext.fin _) (Ext.neg Ext.pinf) = _ at hv
        simp [Ext.neg, Ext.add] at hv
      · obtain ⟨v, hv', -⟩ := hfin j hj (fun hun t ht hgt => hju ⟨hun, t, ht, hgt⟩)
        rw [hv] at hv'
        cases hv'
    · rw [hres] at hv
      simp only [flResidual, hmpj, if_neg hj, flExt] at hv
      change Ext.add (Ext.fin _) (Ext.neg (Ext.div Ext.nan _)) = _ at hv
      simp [Ext.div, Ext.neg, Ext.add] at hv
  have hex : ∃ j v, res j = Ext.fin v := by
    have : ∃ j, 0 < w j ∧ (unique = true → ∀ t < (i : ℕ), g t ≠ j) := by
      cases unique with
      | false => obtain ⟨j, hj⟩ := (by simpa using hen : ∃ j, 0 < w j); exact ⟨j, hj, by simp⟩
      | true =>
        have hen' : PosCount w m := by simpa using hen
        by_contra hc
        push Not at hc
        have hsub : Finset.univ.filter (fun j => 0 < w j) ⊆ (Finset.range i).image g := by
          intro j hj
          obtain ⟨-, t, ht, hgt⟩ := hc j (Finset.mem_filter.1 hj).2
          exact Finset.mem_image.2 ⟨t, Finset.mem_range.2 ht, hgt⟩
        have h1 := Finset.card_le_card hsub
        have h2 : ((Finset.range (i : ℕ)).image g).card ≤ i := by simpa using Finset.card_image_le (s := Finset.range (i : ℕ)) (f := g)
        have h3 : m ≤ (Finset.univ.filter (fun j => 0 < w j)).card := hen'
        have := i.2
        omega
    obtain ⟨j, hj, hju⟩ := this
    obtain ⟨v, hv, -⟩ := hfin j hj hju
    exact ⟨j, v, hv⟩
  obtain ⟨a, va, hnew, hva, hmax⟩ := nanargmax_spec res hpinf hex
  obtain ⟨hwa, hau⟩ := hnot a va hva
  refine ⟨Function.update g i a, ?_⟩
  have hg : ∀ t < (i : ℕ), Function.update g i a t = g t := fun t ht => Function.update_of_ne ht.ne _ _
  have hgi : Function.update g (i : ℕ) a i = a := Function.update_self _ _ _
  have hsum : ∀ t ≤ (i : ℕ), ∀ j, ∑ r ∈ Finset.range t, k (x j) (x (Function.update g i a r)) = ∑ r ∈ Finset.range t, k (x j) (x (g r)) :=
    fun t ht j => Finset.sum_congr rfl fun r hr => by rw [hg r ((Finset.mem_range.1 hr).trans_le ht)]
  have hbody : flHerdingBody o k' x w unique ord rm i s
      = { idx := Function.update s.idx i (a : ℤ),
          pen := if unique then Function.update (fun j => flExt o.add (· + ·) (s.pen j) (Ext.fin (k' (x j) (x a)))) a Ext.pinf
            else fun j => flExt o.add (· + ·) (s.pen j) (Ext.fin (k' (x j) (x a))),
          size := s.size + 1 } := by
    simp only [flHerdingBody, ← hmp, ← hres, hnew, kernelColumn, gatherIdx_coe, setAt_coe]
  rw [hbody]
  refine ⟨fun t ht => ?_, by rw [h.size], fun j hj => ?_, fun j hj => ?_, fun t ht => ?_⟩
  · rcases Nat.lt_succ_iff_lt_or_eq.1 ht with ht' | ht'
    · simp only
      rw [Function.update_of_ne (fun h' => by rw [h'] at ht'; exact lt_irrefl _ ht'), hg _ ht']
      exact h.idx t ht'
    · have : t = i := Fin.ext ht'
      subst this
      simp only [Function.update_self]
  · obtain ⟨hun, t, ht, hgt⟩ := hj
    simp only [hun, if_true]
    by_cases hja : j = a
    · subst hja; exact Function.update_self _ _ _
    · rw [Function.update_of_ne hja]
      have ht' : t < (i : ℕ) := by
        rcases Nat.lt_succ_iff_lt_or_eq.1 ht with h' | h'
        · exact h'
        · exfalso; rw [h', hgi] at hgt; exact hja hgt.symm
      rw [hg t ht'] at hgt
      rw [h.chosen j ⟨hun, t, ht', hgt⟩]
      rfl
  · have hj' : ¬ (unique = true ∧ ∃ t < (i : ℕ), g t = j) := by
      rintro ⟨hun, t, ht, hgt⟩
      exact hj ⟨hun, t, by omega, by rw [hg t ht]; exact hgt⟩
    obtain ⟨p, hp1, hp2⟩ := h.other j hj'
    refine ⟨o.add p (k' (x j) (x a)), ?_, ?_⟩
    · have e : flExt o.add (· + ·) (s.pen j) (Ext.fin (k' (x j) (x a))) = Ext.fin (o.add p (k' (x j) (x a))) := by rw [hp1]; rfl
      simp only
      split_ifs with hun
      · rw [Function.update_of_ne (fun hja => hj ⟨hun, i, by omega, by rw [hgi, hja]⟩), e]
      · exact e
    · rw [Finset.sum_range_succ, hsum i le_rfl, hgi, ← add_assoc]
      refine Near.round_after hu0 hu (add_nonneg (hS0 j) (hk0 _ _)) (Near.add hp2 (Near.mono hu0 hu (hk0 _ _) (hk _ _) (by omega))) (ho.add _ _)
  · rcases Nat.lt_succ_iff_lt_or_eq.1 ht with ht' | ht'
    · obtain ⟨h1, h2, h3⟩ := h.step t ht'
      rw [hg t ht']
      refine ⟨h1, fun hun r hr => by rw [hg r (hr.trans ht')]; exact h2 hun r hr, fun j hj hju => ?_⟩
      rw [hsum t ht'.le, hsum t ht'.le]
      exact h3 j hj fun hun r hr => by have := hju hun r hr; rwa [hg r (hr.trans ht')] at this
    · subst ht'
      rw [hgi]
      refine ⟨hwa, fun hun r hr => by rw [hg r hr]; exact hau hun r hr, fun j hj hju => ?_⟩
      rw [hsum _ le_rfl, hsum _ le_rfl]
      have hju' : unique = true → ∀ t < (i : ℕ), g t ≠ j := fun hun r hr => by have := hju hun r hr; rwa [hg r hr] at this
      obtain ⟨v, hv, hverr⟩ := hfin j hj hju'
      obtain ⟨v', hv', hverr'⟩ := hfin a hwa hau
      rw [hva] at hv'
      cases hv'
      have := (hmax j v hv).1
      have e1 := (abs_le.1 hverr).1
      have e2 := (abs_le.1 hverr').2
      linarith

/-- The number of roundings in an entry of the row mean: `bx` is the first block size. -/
def rowMeanRoundings (q n : ℕ) (bx : Option ℤ) : ℕ := q + n + effBlock n bx + (blockCount n bx - 1)

/-- C66: herding with every operation rounded is nearly greedy. The penalty of a row is the rounded sum of rounded kernel values, it is divided by the
number of points and subtracted from the rounded mean, and the point with the first greatest result is taken: its exact residual is within
twice `residualError` of the greatest one, and it has positive weight and (if distinct points are asked for) is new. -/
theorem C66_nearly_greedy (hu0 : 0 ≤ u) (hu : u < 1) (ho : Rounding u o) (k k' : X → X → ℝ) (hsymm : ∀ a b, k a b = k b a) (q : ℕ) (hk0 : ∀ a b, 0 ≤ k a b)
    (hk : ∀ a b, Near u q (k a b) (k' a b)) (pre : Data n X ℝ) (hw0 : ∀ j, 0 ≤ pre.weights j) (hw : 0 < ∑ j, pre.weights j)
    (R : ℝ) (hR : ∀ i j, k (pre.data i) (pre.data j) ≤ R) (unique : Bool) (size : ℕ) (hle : size ≤ n)
    (hen : if unique then PosCount pre.weights size else ∃ j, 0 < pre.weights j)
    (bs : PyTree (Option ℤ)) (bx bY : Option ℤ) (hbs : treeLeavesRepeat bs 2 = [bx, bY]) (ord : List (Fin size)) :
    ∃ (f : Fin size → Fin n) (rm : List ℝ), flHerdingReduce o k' unique bs size pre ord = .ok (⟨fun t => (f t : ℤ), fun _ => 1⟩, rm) ∧
      NearlyGreedy k pre.data pre.weights unique (2 * residualError u R (max (rowMeanRoundings q n bx) (q + size))) f := by
  obtain ⟨s, l, hl, -, hlen, hnear⟩ := C65_mean hu0 hu ho k k' q hk0 hk pre pre hw0 hw hw0 hw bY bx
  have hrm : ∀ j, Near u (rowMeanRoundings q n bx) (Rate.meanAt k pre.data pre.weights j) (asVec n l j) := by
    intro j
    have h1 := hnear j
    have e : asVec n l j = l.get (j.cast hlen.symm) := by
      simp [asVec, List.getD, hlen]
    rw [e]
    have e2 : Rate.meanAt k pre.data pre.weights j = avg pre.weights fun i => k (pre.data j) (pre.data i) := by
      unfold Rate.meanAt
      congr 1
      funext i
      exact hsymm _ _
    rw [e2]
    exact h1
  set Q := max (rowMeanRoundings q n bx) (q + size) with hQ
  have h0 : ∃ g, RoundInv u q k pre.data pre.weights unique (2 * residualError u R Q) 0 (⟨fun _ => 0, fun _ => .fin o.zero, 0⟩ : GreedyState n size ℝ) g := by
    refine ⟨fun _ => 0, fun t ht => absurd ht (by omega), rfl, ?_, ?_, fun t ht => absurd ht (by omega)⟩
    · rintro j ⟨-, t, ht, -⟩; omega
    · intro j _
      refine ⟨o.zero, rfl, ?_⟩
      rw [ho.zero]
      simp [Near]
  obtain ⟨g, hg⟩ := forLoop_inv (P := fun i (s : GreedyState n size ℝ) => ∃ g, RoundInv u q k pre.data pre.weights unique (2 * residualError u R Q) i s g) size
    (flHerdingBody o k' pre.data pre.weights unique ord (asVec n l)) _ h0
    (fun i s ⟨g, hg⟩ => roundInv_step hu0 hu ho k k' q hk0 hk pre.data pre.weights hw0 hw R hR unique hen ord (asVec n l) _ hrm Q (le_max_left _ _) (le_max_right _ _) i s g hg)
  refine ⟨fun t => g t, l, ?_, fun i => ?_⟩
  · unfold flHerdingReduce
    rw [if_neg (by omega)]
    simp only [flGramianRowMean, hbs, hl]
    congr 3
    funext t
    exact hg.idx t t.2
  · obtain ⟨h1, h2, h3⟩ := hg.step i i.2
    have hs : ∀ j, (∑ t : Fin size, if t < i then k (pre.data j) (pre.data (g t)) else 0) = ∑ r ∈ Finset.range i, k (pre.data j) (pre.data (g r)) := by
      intro j
      rw [sum_castLE i.2.le, Finset.sum_range]
      · refine Finset.sum_congr rfl fun t _ => ?_
        rw [if_pos (by rw [Fin.lt_def]; exact t.2)]
        rfl
      · intro t ht
        rw [if_neg (by rw [Fin.lt_def]; simpa using ht)]
    refine ⟨h1, fun hun t ht => h2 hun t ht, fun j hj hju => ?_⟩
    rw [hs, hs]
    exact h3 j hj fun hun r hr => hju hun ⟨r, hr.trans i.2⟩ hr

/-- C66: sizes greater than the data set are rejected. -/
theorem C66_too_large (o : FloatOps ℝ) (k : X → X → ℝ) (unique : Bool) (bs : PyTree (Option ℤ)) (size : ℕ) (hle : n < size) (pre : Data n X ℝ) (ord : List (Fin size)) :
    flHerdingReduce o k unique bs size pre ord = .error .valueError := by
  unfold flHerdingReduce
  rw [if_pos hle]

/-- A nearly greedy choice in terms of the scores of the potential argument. -/
theorem NearlyGreedy.score_le {k : X → X → ℝ} {x : Fin n → X} {w : Fin n → ℝ} {unique : Bool} {δ : ℝ} {size : ℕ} {f : Fin size → Fin n}
    (h : NearlyGreedy k x w unique δ f) (i : ℕ) (hi : i < size) :
    0 < w (Rate.seq f i) ∧ (unique = true → ∀ t < i, Rate.seq f t ≠ Rate.seq f i) ∧
      ∀ j, 0 < w j → (unique = true → ∀ t < i, Rate.seq f t ≠ j) →
        Rate.score k x w (Rate.seq f) i j ≤ Rate.score k x w (Rate.seq f) i (Rate.seq f i) + δ * ((i : ℝ) + 1) := by
  obtain ⟨h1, h2, h3⟩ := h ⟨i, hi⟩
  have e : Rate.seq f i = f ⟨i, hi⟩ := Rate.seq_fin f ⟨i, hi⟩
  refine ⟨by rw [e]; exact h1, fun hu t ht => ?_, fun j hj hju => ?_⟩
  · rw [e, Rate.seq_fin f ⟨t, ht.trans hi⟩]
    exact h2 hu _ ht
  · have h4 := h3 j hj (fun hu t ht => by
      have := hju hu t ht
      rwa [Rate.seq_fin] at this)
    have hs : ∀ l, (∑ t : Fin size, if t < ⟨i, hi⟩ then k (x l) (x (f t)) else 0)
        = ∑ t ∈ Finset.range i, k (x l) (x (Rate.seq f t)) := by
      intro l
      rw [sum_castLE hi.le, Finset.sum_range]
      · refine Finset.sum_congr rfl fun t _ => ?_
        rw [if_pos (by rw [Fin.lt_def]; exact t.2), ← Rate.seq_fin f (t.castLE hi.le)]
        rfl
      · intro t ht
        rw [if_neg (by rw [Fin.lt_def]; simpa using ht)]
    rw [hs, hs] at h4
    have hp : (0 : ℝ) < (i : ℝ) + 1 := by positivity
    have h5 := mul_le_mul_of_nonneg_left h4 hp.le
    rw [e]
    unfold Rate.score Rate.meanAt
    simp only [mul_sub, mul_add, mul_div_cancel₀ _ hp.ne'] at h5
    linarith

theorem sum_linear_slack (δ : ℝ) (m : ℕ) : 2 * ∑ i ∈ Finset.range m, δ * ((i : ℝ) + 1) = δ * m * (m + 1) := by
  induction m with
  | zero => simp
  | succ m ih =>
    rw [Finset.sum_range_succ, mul_add, ih]
    push_cast
    ring

/-- C66, repeated points allowed: the coreset of rounded herding has the rate of exact herding plus a term that vanishes with the unit roundoff. -/
theorem C66_rate (hu0 : 0 ≤ u) (hu : u < 1) (ho : Rounding u o) (k k' : X → X → ℝ) (hsymm : ∀ a b, k a b = k b a) (q : ℕ) (hk0 : ∀ a b, 0 ≤ k a b)
    (hk : ∀ a b, Near u q (k a b) (k' a b)) (pre : Data n X ℝ) (hw0 : ∀ j, 0 ≤ pre.weights j) (hw : 0 < ∑ j, pre.weights j)
    (R : ℝ) (hR : ∀ i j, k (pre.data i) (pre.data j) ≤ R) (size : ℕ) (hsize : 0 < size) (hle : size ≤ n)
    (bs : PyTree (Option ℤ)) (bx bY : Option ℤ) (hbs : treeLeavesRepeat bs 2 = [bx, bY]) (ord : List (Fin size)) :
    ∃ (f : Fin size → Fin n) (rm : List ℝ), flHerdingReduce o k' false bs size pre ord = .ok (⟨fun t => (f t : ℤ), fun _ => 1⟩, rm) ∧
      mmdSq k pre.data pre.weights (fun t => pre.data (f t)) (fun _ => 1)
        ≤ (R - avg pre.weights fun i => avg pre.weights fun j => k (pre.data i) (pre.data j)) / size
          + 2 * residualError u R (max (rowMeanRoundings q n bx) (q + size)) * (size + 1) / size := by
  have hpos : ∃ j, 0 < pre.weights j := by
    by_contra hc
    push Not at hc
    exact hw.not_ge (Finset.sum_nonpos fun j _ => hc j)
  obtain ⟨f, rm, h1, h2⟩ := C66_nearly_greedy hu0 hu ho k k' hsymm q hk0 hk pre hw0 hw R hR false size hle (by simpa using hpos) bs bx bY hbs ord
  refine ⟨f, rm, h1, ?_⟩
  set δ := 2 * residualError u R (max (rowMeanRoundings q n bx) (q + size)) with hδ
  have hp := Rate.potential_le_slack k hsymm pre.data pre.weights hw0 hw R (Rate.seq f) size (fun i => δ * ((i : ℝ) + 1))
    (fun i _ => hR _ _) (fun i hi j hj => (NearlyGreedy.score_le h2 i hi).2.2 j hj (by simp)) size le_rfl
  rw [Rate.potential_eq_mmdSq k pre.data pre.weights hsize f _ (Rate.seq_fin f), sum_linear_slack] at hp
  have hs : (0 : ℝ) < size := by positivity
  rw [← add_div, le_div_iff₀ hs]
  have : (size : ℝ) * ((size : ℝ) * mmdSq k pre.data pre.weights (fun t => pre.data (f t)) (fun _ => 1))
      ≤ size * (R - Rate.meanSq k pre.data pre.weights + δ * (size + 1)) := by
    linarith [hp, sq (size : ℝ)]
  have := le_of_mul_le_mul_left this hs
  rw [mul_comm]
  exact this

/-- C66, distinct points (the default) on equally weighted data. -/
theorem C66_rate_unique (hu0 : 0 ≤ u) (hu : u < 1) (ho : Rounding u o) (k k' : X → X → ℝ) (hsymm : ∀ a b, k a b = k b a) (q : ℕ) (hk0 : ∀ a b, 0 ≤ k a b)
    (hk : ∀ a b, Near u q (k a b) (k' a b)) (pre : Data n X ℝ)
    (hpsd : ∀ c : Fin n → ℝ, 0 ≤ ∑ i, ∑ j, c i * c j * k (pre.data i) (pre.data j))
    (huw : UniformWeights pre.weights) (size : ℕ) (hsize : 0 < size) (hpos : PosCount pre.weights size)
    (R : ℝ) (hR : ∀ i j, k (pre.data i) (pre.data j) ≤ R)
    (bs : PyTree (Option ℤ)) (bx bY : Option ℤ) (hbs : treeLeavesRepeat bs 2 = [bx, bY]) (ord : List (Fin size)) :
    ∃ (f : Fin size → Fin n) (rm : List ℝ), flHerdingReduce o k' true bs size pre ord = .ok (⟨fun t => (f t : ℤ), fun _ => 1⟩, rm) ∧ Function.Injective f ∧
      mmdSq k pre.data pre.weights (fun t => pre.data (f t)) (fun _ => 1)
        ≤ (R - (avg pre.weights fun i => avg pre.weights fun j => k (pre.data i) (pre.data j)) / 2) / size
          + 2 * residualError u R (max (rowMeanRoundings q n bx) (q + size)) * (size + 1) / size := by
  have hle : size ≤ n := by
    refine hpos.trans ?_
    simpa using Finset.card_le_univ (Finset.univ.filter (fun j => 0 < pre.weights j))
  obtain ⟨c, hc0, hc⟩ := huw
  have hw0 : ∀ j, 0 ≤ pre.weights j := fun j => by rcases hc j with h | h <;> rw [h]; exact hc0.le
  have hw : 0 < ∑ j, pre.weights j := by
    have : 0 < (Finset.univ.filter (fun j => 0 < pre.weights j)).card := lt_of_lt_of_le hsize hpos
    obtain ⟨j, hj⟩ := Finset.card_pos.1 this
    exact Finset.sum_pos' (fun j _ => hw0 j) ⟨j, Finset.mem_univ _, (Finset.mem_filter.1 hj).2⟩
  obtain ⟨f, rm, h1, h2⟩ := C66_nearly_greedy hu0 hu ho k k' hsymm q hk0 hk pre hw0 hw R hR true size hle (by simpa using hpos) bs bx bY hbs ord
  refine ⟨f, rm, h1, fun a b hab => ?_, ?_⟩
  · rcases lt_trichotomy a b with hlt | heq | hlt
    · exact absurd hab ((h2 b).2.1 rfl a hlt)
    · exact heq
    · exact absurd hab.symm ((h2 a).2.1 rfl b hlt)
  set δ := 2 * residualError u R (max (rowMeanRoundings q n bx) (q + size)) with hδ
  have hp := Rate.potential_le_unique_slack k hsymm pre.data hpsd pre.weights c hc0 hc R (Rate.seq f) size (fun i => δ * ((i : ℝ) + 1))
    (fun i _ => hR _ _) (fun i hi => (NearlyGreedy.score_le h2 i hi).1) (fun i hi => (NearlyGreedy.score_le h2 i hi).2.1 rfl)
    (fun i hi j hj hju => (NearlyGreedy.score_le h2 i hi).2.2 j hj fun _ => hju) size le_rfl
  rw [Rate.potential_eq_mmdSq k pre.data pre.weights hsize f _ (Rate.seq_fin f), sum_linear_slack] at hp
  have hs : (0 : ℝ) < size := by positivity
  rw [← add_div, le_div_iff₀ hs]
  have : (size : ℝ) * ((size : ℝ) * mmdSq k pre.data pre.weights (fun t => pre.data (f t)) (fun _ => 1))
      ≤ size * (R - Rate.meanSq k pre.data pre.weights / 2 + δ * (size + 1)) := by
    linarith [hp, sq (size : ℝ)]
  have := le_of_mul_le_mul_left this hs
  rw [mul_comm]
  exact this

/-- C66: if at every step of exact herding the point chosen beats all other allowed points by more than twice the error of a residual, rounded herding
chooses the same points. -/
theorem C66_same_points (hu0 : 0 ≤ u) (hu : u < 1) (ho : Rounding u o) (k k' : X → X → ℝ) (hsymm : ∀ a b, k a b = k b a) (q : ℕ) (hk0 : ∀ a b, 0 ≤ k a b)
    (hk : ∀ a b, Near u q (k a b) (k' a b)) (pre : Data n X ℝ) (hw0 : ∀ j, 0 ≤ pre.weights j) (hw : 0 < ∑ j, pre.weights j)
    (R : ℝ) (hR : ∀ i j, k (pre.data i) (pre.data j) ≤ R) (unique : Bool) (size : ℕ) (hle : size ≤ n)
    (hen : if unique then PosCount pre.weights size else ∃ j, 0 < pre.weights j)
    (bs : PyTree (Option ℤ)) (bx bY : Option ℤ) (hbs : treeLeavesRepeat bs 2 = [bx, bY]) (ord : List (Fin size))
    (f : Fin size → Fin n) (hf : ∀ i, 0 < pre.weights (f i) ∧ (unique = true → ∀ t, t < i → f t ≠ f i))
    (hgap : ∀ i j, 0 < pre.weights j → (unique = true → ∀ t, t < i → f t ≠ j) → j ≠ f i →
      (avg pre.weights fun l => k (pre.data l) (pre.data j)) - (∑ t, if t < i then k (pre.data j) (pre.data (f t)) else 0) / ((i : ℕ) + 1 : ℝ)
        + 2 * residualError u R (max (rowMeanRoundings q n bx) (q + size))
      < (avg pre.weights fun l => k (pre.data l) (pre.data (f i))) - (∑ t, if t < i then k (pre.data (f i)) (pre.data (f t)) else 0) / ((i : ℕ) + 1 : ℝ)) :
    ∃ rm, flHerdingReduce o k' unique bs size pre ord = .ok (⟨fun t => (f t : ℤ), fun _ => 1⟩, rm) := by
  obtain ⟨g, rm, h1, h2⟩ := C66_nearly_greedy hu0 hu ho k k' hsymm q hk0 hk pre hw0 hw R hR unique size hle hen bs bx bY hbs ord
  have key : ∀ i, g i = f i := by
    intro i
    induction i using WellFoundedLT.induction with
    | ind i ih =>
      obtain ⟨a1, a2, a3⟩ := h2 i
      by_contra hne
      have hs : ∀ j, (∑ t, if t < i then k (pre.data j) (pre.data (g t)) else 0) = ∑ t, if t < i then k (pre.data j) (pre.data (f t)) else 0 :=
        fun j => Finset.sum_congr rfl fun t _ => by
          split_ifs with ht
          · rw [ih t ht]
          · rfl
      have b1 := hgap i (g i) a1 (fun hun t ht => by rw [← ih t ht]; exact a2 hun t ht) hne
      have b2 := a3 (f i) (hf i).1 (fun hun t ht => by rw [ih t ht]; exact (hf i).2 hun t ht)
      rw [hs, hs] at b2
      linarith
  refine ⟨rm, ?_⟩
  rw [h1]
  congr 3
  funext t
  rw [key t]

/-- C66: the size of the error: at most `(2Q+1) u / (1 - Q u)` times the bound of the kernel. -/
theorem C66_error_size (hu0 : 0 ≤ u) (hu : u < 1) {R : ℝ} (hR : 0 ≤ R) (Q : ℕ) (hQ : Q * u < 1) :
    residualError u R Q ≤ (2 * Q + 1) * u / (1 - Q * u) * R := by
  have h1 : 1 - Q * u ≤ (1 - u) ^ Q := by
    have := one_add_mul_le_pow (a := -u) (by linarith) Q
    rw [show (1 : ℝ) + -u = 1 - u by ring] at this
    linarith
  have h0 : 0 < 1 - Q * u := by linarith
  have h2 : 1 / (1 - u) ^ Q ≤ 1 / (1 - Q * u) := one_div_le_one_div_of_le h0 h1
  unfold residualError
  refine mul_le_mul_of_nonneg_right ?_ hR
  have h3 := mul_le_mul_of_nonneg_left h2 hu0
  have e : (2 * Q + 1) * u / (1 - Q * u) = 2 * (1 / (1 - Q * u) - 1) + u * (1 / (1 - Q * u)) := by
    field_simp
    ring
  rw [e]
  linarith

/-! ### Cases -/

/-- Exact arithmetic: no extra term. -/
example (R : ℝ) (Q : ℕ) : residualError 0 R Q = 0 := by simp [residualError]

/-- In single precision with a kernel evaluated in four roundings, for 1000 rows and up to 2000 points: the error of a residual is less than `R/4000`. -/
example : rowMeanRoundings 4 1000 none = 2004 ∧ residualError ((1 / 2) ^ 24) 1 2004 < 1 / 4000 := by
  refine ⟨by decide +kernel, (C66_error_size (by norm_num) (by norm_num) zero_le_one 2004 (by norm_num)).trans_lt ?_⟩
  norm_num

end

/-- Rounded herding in single precision on three weighted rows of the real line. -/
example : ∃ rm, flHerdingReduce (roundedOps (binaryRound 23)) (fun a b : ℝ => if a = b then 1 else 0) true (.leaf none) 2
    (⟨![1, 2, 3], ![3, 2, 1]⟩ : Data 3 ℝ ℝ) (List.finRange 2) = .ok (⟨fun t => ((![0, 1] t : Fin 3) : ℤ), fun _ => 1⟩, rm) := by
  have he : residualError ((1 / 2) ^ 24) 1 (max (rowMeanRoundings 0 3 none) (0 + 2)) < 1 / 100 := by
    have : max (rowMeanRoundings 0 3 none) (0 + 2) = 6 := by decide +kernel
    rw [this]
    refine (C66_error_size (by norm_num) (by norm_num) zero_le_one 6 (by norm_num)).trans_lt ?_
    norm_num
  refine C66_same_points (u := (1 / 2) ^ 24) (by norm_num) (by norm_num) (roundedOps_rounding fun a => binaryRound_error 23 a)
    (fun a b => if a = b then 1 else 0) (fun a b => if a = b then 1 else 0) (fun a b => by simp only [eq_comm]) 0
    (fun a b => by split_ifs <;> norm_num) (fun a b => Near.refl _ _) _ (by intro j; fin_cases j <;> norm_num) (by simp [Fin.sum_univ_three]; norm_num)
    1 (fun i j => by split_ifs <;> norm_num) true 2 (by norm_num) ?_ (.leaf none) none none rfl _ ![0, 1] ?_ ?_
  · simp [PosCount, Finset.filter_true_of_mem, Fin.forall_fin_succ]
  · intro i
    fin_cases i <;> simp [Fin.forall_fin_two]
  · intro i j hj hju hne
    fin_cases i <;> fin_cases j <;> simp [Fin.forall_fin_two, avg, Fin.sum_univ_three, Fin.sum_univ_two] at hju hne ⊢ <;> norm_num <;> linarith

/-- Single precision, the kernel that is 1 on equal points: two of three weighted rows, with and without `unique`. -/
example (unique : Bool) := C66_nearly_greedy (u := (1 / 2) ^ 24) (by norm_num) (by norm_num) (roundedOps_rounding fun a => binaryRound_error 23 a)
    (fun a b : ℝ => if a = b then (1 : ℝ) else 0) (fun a b => if a = b then 1 else 0) (fun a b => by simp only [eq_comm]) 0
    (fun a b => by split_ifs <;> norm_num) (fun a b => Near.refl _ _) ⟨![1, 2, 3], ![3, 2, 1]⟩ (by intro j; fin_cases j <;> norm_num) (by simp [Fin.sum_univ_three]; norm_num)
    1 (fun i j => by split_ifs <;> norm_num) unique 2 (by norm_num)
    (by cases unique <;> simp [PosCount, Finset.filter_true_of_mem, Fin.forall_fin_succ, Fin.exists_fin_succ]) (.leaf none) none none rfl (List.finRange 2)

example := C66_rate (u := (1 / 2) ^ 24) (by norm_num) (by norm_num) (roundedOps_rounding fun a => binaryRound_error 23 a)
    (fun a b : ℝ => if a = b then (1 : ℝ) else 0) (fun a b => if a = b then 1 else 0) (fun a b => by simp only [eq_comm]) 0
    (fun a b => by split_ifs <;> norm_num) (fun a b => Near.refl _ _) ⟨![1, 2, 3], ![3, 2, 1]⟩ (by intro j; fin_cases j <;> norm_num) (by simp [Fin.sum_univ_three]; norm_num)
    1 (fun i j => by split_ifs <;> norm_num) 2 (by norm_num) (by norm_num) (.leaf none) none none rfl (List.finRange 2)

example := C66_rate_unique (u := (1 / 2) ^ 24) (by norm_num) (by norm_num) (roundedOps_rounding fun a => binaryRound_error 23 a)
    (fun a b : ℝ => if a = b then (1 : ℝ) else 0) (fun a b => if a = b then 1 else 0) (fun a b => by simp only [eq_comm]) 0
    (fun a b => by split_ifs <;> norm_num) (fun a b => Near.refl _ _) ⟨![1, 2, 3], ![1, 1, 1]⟩
    (fun c => by simp [Fin.sum_univ_three]; nlinarith [mul_self_nonneg (c 0), mul_self_nonneg (c 1), mul_self_nonneg (c 2)])
    ⟨1, by norm_num, by intro i; fin_cases i <;> simp⟩ 2 (by norm_num) (by simp [PosCount, Finset.filter_true_of_mem, Fin.forall_fin_succ])
    1 (fun i j => by split_ifs <;> norm_num) (.leaf none) none none rfl (List.finRange 2)

example := C66_too_large (n := 3) (roundedOps (binaryRound 23)) (fun a b : ℝ => a * b) true (.leaf none) 4 (by norm_num) ⟨![1, 2, 3], ![1, 1, 1]⟩ []

end Coreax
