import Verif.Props.RoundedHerding
import Verif.Props.RoundedExp
import Verif.Props.Kernel

/-!
# Kernel herding in rounded arithmetic with a kernel whose error is not relative to its value

The kernel may have either sign and its values may be computed with an error relative to a size `K`; `R` bounds that size on the data. The exponential kernels (C116) are of this
kind, with the output scale as size.
-/

namespace Coreax

open Greedy Spec

variable {X : Type*} [Zero X] {n : ℕ} [NeZero n]

/-- The bound of the error of a residual after at most `Q` roundings of its two terms, of size `R` each. -/
noncomputable def signedResidualError (u R : ℝ) (Q : ℕ) : ℝ := (1 / (1 - u) ^ (Q + 1) - 1) * (2 * R)

namespace SignedHerding

variable {u : ℝ} {o : FloatOps ℝ}

theorem within_weaken (hu0 : 0 ≤ u) (hu : u < 1) {p : ℕ} {A B x c : ℝ} (h : Within u p A x c) (hAB : A ≤ B) : Within u p B x c :=
  ⟨h.1.trans hAB, h.2.trans (mul_le_mul_of_nonneg_left hAB (by linarith [Within.one_le hu0 hu p]))⟩

theorem avg_le {w f : Fin n → ℝ} {R : ℝ} (hw0 : ∀ j, 0 ≤ w j) (hw : 0 < ∑ j, w j) (hf : ∀ j, f j ≤ R) : avg w f ≤ R := by
  unfold avg
  rw [div_le_iff₀ hw, Finset.mul_sum]
  exact Finset.sum_le_sum fun l _ => by rw [mul_comm]; exact mul_le_mul_of_nonneg_right (hf l) (hw0 l)

/-- The state of the loop after `i` steps. -/
structure SignedInv (u R : ℝ) (q : ℕ) (k : X → X → ℝ) (x : Fin n → X) (w : Fin n → ℝ) (unique : Bool) (δ : ℝ) {m : ℕ} (i : ℕ) (s : GreedyState n m ℝ) (g : ℕ → Fin n) : Prop where
  idx : ∀ t : Fin m, (t : ℕ) < i → s.idx t = ((g t : Fin n) : ℤ)
  size : s.size = i
  chosen : ∀ j, (unique = true ∧ ∃ t < i, g t = j) → s.pen j = Ext.pinf
  other : ∀ j, ¬ (unique = true ∧ ∃ t < i, g t = j) → ∃ p, s.pen j = Ext.fin p ∧ Within u (q + i) (i * R) (∑ t ∈ Finset.range i, k (x j) (x (g t))) p
  step : ∀ t < i, 0 < w (g t) ∧ (unique = true → ∀ r < t, g r ≠ g t) ∧
    ∀ j, 0 < w j → (unique = true → ∀ r < t, g r ≠ j) →
      Rate.meanAt k x w j - (∑ r ∈ Finset.range t, k (x j) (x (g r))) / ((t : ℝ) + 1)
        ≤ Rate.meanAt k x w (g t) - (∑ r ∈ Finset.range t, k (x (g t)) (x (g r))) / ((t : ℝ) + 1) + δ

theorem signedInv_step (hu0 : 0 ≤ u) (hu : u < 1) (ho : Rounding u o) (K k k' : X → X → ℝ) (q : ℕ)
    (hk : ∀ a b, Within u q (K a b) (k a b) (k' a b)) (x : Fin n → X) (w : Fin n → ℝ) (R : ℝ) (hR : ∀ i j, K (x i) (x j) ≤ R)
    (unique : Bool) {m : ℕ} (hen : if unique then PosCount w m else ∃ j, 0 < w j) (ord : List (Fin m)) (rm : Fin n → ℝ) (P : ℕ)
    (hrm : ∀ j, Within u P R (Rate.meanAt k x w j) (rm j)) (Q : ℕ) (hP : P ≤ Q) (hQ : q + m ≤ Q) (i : Fin m) (s : GreedyState n m ℝ) (g : ℕ → Fin n)
    (h : SignedInv u R q k x w unique (2 * signedResidualError u R Q) i s g) :
    ∃ g', SignedInv u R q k x w unique (2 * signedResidualError u R Q) (i + 1) (flHerdingBody o k' x w unique ord rm i s) g' := by
  classical
  have hR0 : 0 ≤ R := (hrm 0).size_nonneg
  have hip : (0 : ℝ) < (i : ℕ) + 1 := by positivity
  -- the residuals
  set mp := maskedPenalty w unique ord (fun _ => (0 : ℝ)) i s.idx s.pen with hmp
  have hmpj : ∀ j, mp j = if 0 < w j then s.pen j else Ext.nan := fun j => by rw [hmp, maskedPenalty_fresh]
  set res := flResidual o rm mp (s.size + 1) with hres
  have hfin : ∀ j, 0 < w j → (unique = true → ∀ t < (i : ℕ), g t ≠ j) → ∃ v, res j = Ext.fin v ∧
      |v - (Rate.meanAt k x w j - (∑ t ∈ Finset.range i, k (x j) (x (g t))) / ((i : ℕ) + 1))| ≤ signedResidualError u R Q := by
    intro j hj hju
    obtain ⟨p, hp1, hp2⟩ := h.other j (by rintro ⟨h1, t, ht, h2⟩; exact hju h1 t ht h2)
    refine ⟨o.sub (rm j) (o.div p ((s.size + 1 : ℕ) : ℝ)), ?_, ?_⟩
    · rw [hres]
      simp only [flResidual, hmpj, if_pos hj, hp1, flExt]
    · rw [h.size]
      have h1 := Within.div hu0 hu hip hp2 (Near.refl u ((i : ℕ) + 1 : ℝ))
      have h2 : Within u (q + i + 0 + 1) (i * R / ((i : ℕ) + 1)) ((∑ t ∈ Finset.range i, k (x j) (x (g t))) / ((i : ℕ) + 1)) (o.div p (((i : ℕ) + 1 : ℕ) : ℝ)) := by
        refine Within.round_after hu0 hu h1 ?_
        push_cast
        exact ho.div _ _ hip.ne'
      have h3 : (i : ℕ) * R / ((i : ℕ) + 1) ≤ R := by
        rw [div_le_iff₀ hip]
        nlinarith
      have h4 := within_weaken hu0 hu (Within.mono hu0 hu h2 (q := Q) (by have := i.2; omega)) h3
      have h5 := Within.round_after hu0 hu (Within.sub (Within.mono hu0 hu (hrm j) hP) h4) (ho.sub _ _)
      rw [← two_mul] at h5
      exact h5.2
  have hdp : (Ext.pinf : Ext ℝ) / Ext.fin ((s.size + 1 : ℕ) : ℝ) = Ext.pinf := by
    change Ext.div _ _ = _
    simp only [Ext.div]
    rw [if_pos (by positivity)]
  have hnot : ∀ j v, res j = Ext.fin v → 0 < w j ∧ (unique = true → ∀ t < (i : ℕ), g t ≠ j) := by
    intro j v hv
    have hwj : 0 < w j := by
      by_contra hc
      rw [hres] at hv
      simp only [flResidual, hmpj, if_neg hc, flExt] at hv
      change Ext.add (Ext.fin _) (Ext.neg (Ext.div Ext.nan _)) = _ at hv
      simp [Ext.div, Ext.neg, Ext.add] at hv
    refine ⟨hwj, fun hun t ht hgt => ?_⟩
    rw [hres] at hv
    simp only [flResidual, hmpj, if_pos hwj, h.chosen j ⟨hun, t, ht, hgt⟩, flExt] at hv
    rw [hdp] at hv
    change Ext.add (Ext.fin _) (Ext.neg Ext.pinf) = _ at hv
    simp [Ext.neg, Ext.add] at hv
  have hpinf : ∀ j, res j ≠ Ext.pinf := by
    intro j hv
    by_cases hj : 0 < w j
    · by_cases hju : unique = true ∧ ∃ t < (i : ℕ), g t = j
      · rw [hres] at hv
        simp only [flResidual, hmpj, if_pos hj, h.chosen j hju, flExt] at hv
        rw [hdp] at hv
        change Ext.add (Ext.fin _) (Ext.neg Ext.pinf) = _ at hv
        simp [Ext.neg, Ext.add] at hv
      · obtain ⟨v, hv', -⟩ := hfin j hj (fun hun t ht hgt => hju ⟨hun, t, ht, hgt⟩)
        rw [hv] at hv'
        cases hv'
    · rw [hres] at hv
      simp only [flResidual, hmpj, if_neg hj, flExt] at hv
      change Ext.add (Ext.fin _) (Ext.neg (Ext.div Ext.nan _)) = _ at hv
      simp [Ext.div, Ext.neg, Ext.add] at hv
  have hex : ∃ j v, res j = Ext.fin v := by
    have : ∃ j, 0 < w j ∧ (unique = true → ∀ t < (i : ℕ), g t ≠ j) := by
      cases unique with
      | false => obtain ⟨j, hj⟩ := (by simpa using hen : ∃ j, 0 < w j); exact ⟨j, hj, by simp⟩
      | true =>
        have hen' : PosCount w m := by simpa using hen
        by_contra hc
        push Not at hc
        have hsub : Finset.univ.filter (fun j => 0 < w j) ⊆ (Finset.range i).image g := by
          intro j hj
          obtain ⟨-, t, ht, hgt⟩ := hc j (Finset.mem_filter.1 hj).2
          exact Finset.mem_image.2 ⟨t, Finset.mem_range.2 ht, hgt⟩
        have h1 := Finset.card_le_card hsub
        have h2 : ((Finset.range (i : ℕ)).image g).card ≤ i := by simpa using Finset.card_image_le (s := Finset.range (i : ℕ)) (f := g)
        have h3 : m ≤ (Finset.univ.filter (fun j => 0 < w j)).card := hen'
        have := i.2
        omega
    obtain ⟨j, hj, hju⟩ := this
    obtain ⟨v, hv, -⟩ := hfin j hj hju
    exact ⟨j, v, hv⟩
  obtain ⟨a, va, hnew, hva, hmax⟩ := nanargmax_spec res hpinf hex
  obtain ⟨hwa, hau⟩ := hnot a va hva
  refine ⟨Function.update g i a, ?_⟩
  have hg : ∀ t < (i : ℕ), Function.update g i a t = g t := fun t ht => Function.update_of_ne ht.ne _ _
  have hgi : Function.update g (i : ℕ) a i = a := Function.update_self _ _ _
  have hsum : ∀ t ≤ (i : ℕ), ∀ j, ∑ r ∈ Finset.range t, k (x j) (x (Function.update g i a r)) = ∑ r ∈ Finset.range t, k (x j) (x (g r)) :=
    fun t ht j => Finset.sum_congr rfl fun r hr => by rw [hg r ((Finset.mem_range.1 hr).trans_le ht)]
  have hbody : flHerdingBody o k' x w unique ord rm i s
      = { idx := Function.update s.idx i (a : ℤ),
          pen := if unique then Function.update (fun j => flExt o.add (· + ·) (s.pen j) (Ext.fin (k' (x j) (x a)))) a Ext.pinf
            else fun j => flExt o.add (· + ·) (s.pen j) (Ext.fin (k' (x j) (x a))),
          size := s.size + 1 } := by
    simp only [flHerdingBody, ← hmp, ← hres, hnew, kernelColumn, gatherIdx_coe, setAt_coe]
  rw [hbody]
  refine ⟨fun t ht => ?_, by rw [h.size], fun j hj => ?_, fun j hj => ?_, fun t ht => ?_⟩
  · rcases Nat.lt_succ_iff_lt_or_eq.1 ht with ht' | ht'
    · simp only
      rw [Function.update_of_ne (fun h' => by rw [h'] at ht'; exact lt_irrefl _ ht'), hg _ ht']
      exact h.idx t ht'
    · have : t = i := Fin.ext ht'
      subst this
      simp only [Function.update_self]
  · obtain ⟨hun, t, ht, hgt⟩ := hj
    simp only [hun, if_true]
    by_cases hja : j = a
    · subst hja; exact Function.update_self _ _ _
    · rw [Function.update_of_ne hja]
      have ht' : t < (i : ℕ) := by
        rcases Nat.lt_succ_iff_lt_or_eq.1 ht with h' | h'
        · exact h'
        · exfalso; rw [h', hgi] at hgt; exact hja hgt.symm
      rw [hg t ht'] at hgt
      rw [h.chosen j ⟨hun, t, ht', hgt⟩]
      rfl
  · have hj' : ¬ (unique = true ∧ ∃ t < (i : ℕ), g t = j) := by
      rintro ⟨hun, t, ht, hgt⟩
      exact hj ⟨hun, t, by omega, by rw [hg t ht]; exact hgt⟩
    obtain ⟨p, hp1, hp2⟩ := h.other j hj'
    refine ⟨o.add p (k' (x j) (x a)), ?_, ?_⟩
    · have e : flExt o.add (· + ·) (s.pen j) (Ext.fin (k' (x j) (x a))) = Ext.fin (o.add p (k' (x j) (x a))) := by rw [hp1]; rfl
      simp only
      split_ifs with hun
      · rw [Function.update_of_ne (fun hja => hj ⟨hun, i, by omega, by rw [hgi, hja]⟩), e]
      · exact e
    · rw [Finset.sum_range_succ, hsum i le_rfl, hgi, ← add_assoc]
      have h1 := Within.add hp2 (within_weaken hu0 hu (Within.mono hu0 hu (hk (x j) (x a)) (q := q + i) (by omega)) (hR j a))
      rw [show ((i : ℕ) : ℝ) * R + R = ((i : ℕ) + 1 : ℕ) * R by push_cast; ring] at h1
      exact Within.round_after hu0 hu h1 (ho.add _ _)
  · rcases Nat.lt_succ_iff_lt_or_eq.1 ht with ht' | ht'
    · obtain ⟨h1, h2, h3⟩ := h.step t ht'
      rw [hg t ht']
      refine ⟨h1, fun hun r hr => by rw [hg r (hr.trans ht')]; exact h2 hun r hr, fun j hj hju => ?_⟩
      rw [hsum t ht'.le, hsum t ht'.le]
      exact h3 j hj fun hun r hr => by have := hju hun r hr; rwa [hg r (hr.trans ht')] at this
    · subst ht'
      rw [hgi]
      refine ⟨hwa, fun hun r hr => by rw [hg r hr]; exact hau hun r hr, fun j hj hju => ?_⟩
      rw [hsum _ le_rfl, hsum _ le_rfl]
      have hju' : unique = true → ∀ t < (i : ℕ), g t ≠ j := fun hun r hr => by have := hju hun r hr; rwa [hg r hr] at this
      obtain ⟨v, hv, hverr⟩ := hfin j hj hju'
      obtain ⟨v', hv', hverr'⟩ := hfin a hwa hau
      rw [hva] at hv'
      cases hv'
      have := (hmax j v hv).1
      have e1 := (abs_le.1 hverr).1
      have e2 := (abs_le.1 hverr').2
      linarith

end SignedHerding

open SignedHerding

variable {u : ℝ} {o : FloatOps ℝ}

/-- C117: herding with every operation rounded is nearly greedy for any kernel computed with an error relative to a bounded size. -/
theorem C117_nearly_greedy (hu0 : 0 ≤ u) (hu : u < 1) (ho : Rounding u o) (K k k' : X → X → ℝ) (hsymm : ∀ a b, k a b = k b a) (q : ℕ)
    (hk : ∀ a b, Within u q (K a b) (k a b) (k' a b)) (pre : Data n X ℝ) (hw0 : ∀ j, 0 ≤ pre.weights j) (hw : 0 < ∑ j, pre.weights j)
    (R : ℝ) (hR : ∀ i j, K (pre.data i) (pre.data j) ≤ R) (unique : Bool) (size : ℕ) (hle : size ≤ n)
    (hen : if unique then PosCount pre.weights size else ∃ j, 0 < pre.weights j)
    (bs : PyTree (Option ℤ)) (bx bY : Option ℤ) (hbs : treeLeavesRepeat bs 2 = [bx, bY]) (ord : List (Fin size)) :
    ∃ (f : Fin size → Fin n) (rm : List ℝ), flHerdingReduce o k' unique bs size pre ord = .ok (⟨fun t => (f t : ℤ), fun _ => 1⟩, rm) ∧
      NearlyGreedy k pre.data pre.weights unique (2 * signedResidualError u R (max (rowMeanRoundings q n bx) (q + size))) f := by
  obtain ⟨s, l, hl, -, hlen, hnear⟩ := C114_mean hu0 hu ho K k k' q hk pre pre hw0 hw hw0 hw bY bx
  have hrm : ∀ j, Within u (rowMeanRoundings q n bx) R (Rate.meanAt k pre.data pre.weights j) (asVec n l j) := by
    intro j
    have h1 := hnear j
    have e : asVec n l j = l.get (j.cast hlen.symm) := by
      simp [asVec, List.getD, hlen]
    rw [e]
    have e2 : Rate.meanAt k pre.data pre.weights j = avg pre.weights fun i => k (pre.data j) (pre.data i) := by
      unfold Rate.meanAt
      congr 1
      funext i
      exact hsymm _ _
    rw [e2]
    exact within_weaken hu0 hu h1 (avg_le hw0 hw fun i => hR j i)
  set Q := max (rowMeanRoundings q n bx) (q + size) with hQ
  have h0 : ∃ g, SignedInv u R q k pre.data pre.weights unique (2 * signedResidualError u R Q) 0 (⟨fun _ => 0, fun _ => .fin o.zero, 0⟩ : GreedyState n size ℝ) g := by
    refine ⟨fun _ => 0, fun t ht => absurd ht (by omega), rfl, ?_, ?_, fun t ht => absurd ht (by omega)⟩
    · rintro j ⟨-, t, ht, -⟩; omega
    · intro j _
      refine ⟨o.zero, rfl, ?_⟩
      rw [ho.zero]
      simp [Within]
  obtain ⟨g, hg⟩ := forLoop_inv (P := fun i (s : GreedyState n size ℝ) => ∃ g, SignedInv u R q k pre.data pre.weights unique (2 * signedResidualError u R Q) i s g) size
    (flHerdingBody o k' pre.data pre.weights unique ord (asVec n l)) _ h0
    (fun i s ⟨g, hg⟩ => signedInv_step hu0 hu ho K k k' q hk pre.data pre.weights R hR unique hen ord (asVec n l) _ hrm Q (le_max_left _ _) (le_max_right _ _) i s g hg)
  refine ⟨fun t => g t, l, ?_, fun i => ?_⟩
  · unfold flHerdingReduce
    rw [if_neg (by omega)]
    simp only [flGramianRowMean, hbs, hl]
    congr 3
    funext t
    exact hg.idx t t.2
  · obtain ⟨h1, h2, h3⟩ := hg.step i i.2
    have hs : ∀ j, (∑ t : Fin size, if t < i then k (pre.data j) (pre.data (g t)) else 0) = ∑ r ∈ Finset.range i, k (pre.data j) (pre.data (g r)) := by
      intro j
      rw [sum_castLE i.2.le, Finset.sum_range]
      · refine Finset.sum_congr rfl fun t _ => ?_
        rw [if_pos (by rw [Fin.lt_def]; exact t.2)]
        rfl
      · intro t ht
        rw [if_neg (by rw [Fin.lt_def]; simpa using ht)]
    refine ⟨h1, fun hun t ht => h2 hun t ht, fun j hj hju => ?_⟩
    rw [hs, hs]
    exact h3 j hj fun hun r hr => hju hun ⟨r, hr.trans i.2⟩ hr

/-- C117, repeated points allowed: the rate of exact herding plus a term that vanishes with the unit roundoff. -/
theorem C117_rate (hu0 : 0 ≤ u) (hu : u < 1) (ho : Rounding u o) (K k k' : X → X → ℝ) (hsymm : ∀ a b, k a b = k b a) (q : ℕ)
    (hk : ∀ a b, Within u q (K a b) (k a b) (k' a b)) (pre : Data n X ℝ) (hw0 : ∀ j, 0 ≤ pre.weights j) (hw : 0 < ∑ j, pre.weights j)
    (R : ℝ) (hR : ∀ i j, K (pre.data i) (pre.data j) ≤ R) (size : ℕ) (hsize : 0 < size) (hle : size ≤ n)
    (bs : PyTree (Option ℤ)) (bx bY : Option ℤ) (hbs : treeLeavesRepeat bs 2 = [bx, bY]) (ord : List (Fin size)) :
    ∃ (f : Fin size → Fin n) (rm : List ℝ), flHerdingReduce o k' false bs size pre ord = .ok (⟨fun t => (f t : ℤ), fun _ => 1⟩, rm) ∧
      mmdSq k pre.data pre.weights (fun t => pre.data (f t)) (fun _ => 1)
        ≤ (R - avg pre.weights fun i => avg pre.weights fun j => k (pre.data i) (pre.data j)) / size
          + 2 * signedResidualError u R (max (rowMeanRoundings q n bx) (q + size)) * (size + 1) / size := by
  have hpos : ∃ j, 0 < pre.weights j := by
    by_contra hc
    push Not at hc
    exact hw.not_ge (Finset.sum_nonpos fun j _ => hc j)
  obtain ⟨f, rm, h1, h2⟩ := C117_nearly_greedy hu0 hu ho K k k' hsymm q hk pre hw0 hw R hR false size hle (by simpa using hpos) bs bx bY hbs ord
  refine ⟨f, rm, h1, ?_⟩
  set δ := 2 * signedResidualError u R (max (rowMeanRoundings q n bx) (q + size)) with hδ
  have hp := Rate.potential_le_slack k hsymm pre.data pre.weights hw0 hw R (Rate.seq f) size (fun i => δ * ((i : ℝ) + 1))
    (fun i _ => (le_abs_self _).trans ((hk _ _).1.trans (hR _ _))) (fun i hi j hj => (NearlyGreedy.score_le h2 i hi).2.2 j hj (by simp)) size le_rfl
  rw [Rate.potential_eq_mmdSq k pre.data pre.weights hsize f _ (Rate.seq_fin f), sum_linear_slack] at hp
  have hs : (0 : ℝ) < size := by positivity
  rw [← add_div, le_div_iff₀ hs]
  have : (size : ℝ) * ((size : ℝ) * mmdSq k pre.data pre.weights (fun t => pre.data (f t)) (fun _ => 1))
      ≤ size * (R - Rate.meanSq k pre.data pre.weights + δ * (size + 1)) := by
    linarith [hp, sq (size : ℝ)]
  have := le_of_mul_le_mul_left this hs
  rw [mul_comm]
  exact this

/-- C117, distinct points (the default) on equally weighted data. -/
theorem C117_rate_unique (hu0 : 0 ≤ u) (hu : u < 1) (ho : Rounding u o) (K k k' : X → X → ℝ) (hsymm : ∀ a b, k a b = k b a) (q : ℕ)
    (hk : ∀ a b, Within u q (K a b) (k a b) (k' a b)) (pre : Data n X ℝ)
    (hpsd : ∀ c : Fin n → ℝ, 0 ≤ ∑ i, ∑ j, c i * c j * k (pre.data i) (pre.data j))
    (huw : UniformWeights pre.weights) (size : ℕ) (hsize : 0 < size) (hpos : PosCount pre.weights size)
    (R : ℝ) (hR : ∀ i j, K (pre.data i) (pre.data j) ≤ R)
    (bs : PyTree (Option ℤ)) (bx bY : Option ℤ) (hbs : treeLeavesRepeat bs 2 = [bx, bY]) (ord : List (Fin size)) :
    ∃ (f : Fin size → Fin n) (rm : List ℝ), flHerdingReduce o k' true bs size pre ord = .ok (⟨fun t => (f t : ℤ), fun _ => 1⟩, rm) ∧ Function.Injective f ∧
      mmdSq k pre.data pre.weights (fun t => pre.data (f t)) (fun _ => 1)
        ≤ (R - (avg pre.weights fun i => avg pre.weights fun j => k (pre.data i) (pre.data j)) / 2) / size
          + 2 * signedResidualError u R (max (rowMeanRoundings q n bx) (q + size)) * (size + 1) / size := by
  have hle : size ≤ n := by
    refine hpos.trans ?_
    simpa using Finset.card_le_univ (Finset.univ.filter (fun j => 0 < pre.weights j))
  obtain ⟨c, hc0, hc⟩ := huw
  have hw0 : ∀ j, 0 ≤ pre.weights j := fun j => by rcases hc j with h | h <;> rw [h]; exact hc0.le
  have hw : 0 < ∑ j, pre.weights j := by
    have : 0 < (Finset.univ.filter (fun j => 0 < pre.weights j)).card := lt_of_lt_of_le hsize hpos
    obtain ⟨j, hj⟩ := Finset.card_pos.1 this
    exact Finset.sum_pos' (fun j _ => hw0 j) ⟨j, Finset.mem_univ _, (Finset.mem_filter.1 hj).2⟩
  obtain ⟨f, rm, h1, h2⟩ := C117_nearly_greedy hu0 hu ho K k k' hsymm q hk pre hw0 hw R hR true size hle (by simpa using hpos) bs bx bY hbs ord
  refine ⟨f, rm, h1, fun a b hab => ?_, ?_⟩
  · rcases lt_trichotomy a b with hlt | heq | hlt
    · exact absurd hab ((h2 b).2.1 rfl a hlt)
    · exact heq
    · exact absurd hab.symm ((h2 a).2.1 rfl b hlt)
  set δ := 2 * signedResidualError u R (max (rowMeanRoundings q n bx) (q + size)) with hδ
  have hp := Rate.potential_le_unique_slack k hsymm pre.data hpsd pre.weights c hc0 hc R (Rate.seq f) size (fun i => δ * ((i : ℝ) + 1))
    (fun i _ => (le_abs_self _).trans ((hk _ _).1.trans (hR _ _))) (fun i hi => (NearlyGreedy.score_le h2 i hi).1) (fun i hi => (NearlyGreedy.score_le h2 i hi).2.1 rfl)
    (fun i hi j hj hju => (NearlyGreedy.score_le h2 i hi).2.2 j hj fun _ => hju) size le_rfl
  rw [Rate.potential_eq_mmdSq k pre.data pre.weights hsize f _ (Rate.seq_fin f), sum_linear_slack] at hp
  have hs : (0 : ℝ) < size := by positivity
  rw [← add_div, le_div_iff₀ hs]
  have : (size : ℝ) * ((size : ℝ) * mmdSq k pre.data pre.weights (fun t => pre.data (f t)) (fun _ => 1))
      ≤ size * (R - Rate.meanSq k pre.data pre.weights / 2 + δ * (size + 1)) := by
    linarith [hp, sq (size : ℝ)]
  have := le_of_mul_le_mul_left this hs
  rw [mul_comm]
  exact this

/-- C117, the size of the error: at most `2 (Q + 1) u / (1 - (Q + 1) u)` times the bound of the kernel. -/
theorem C117_error_size (hu0 : 0 ≤ u) (hu : u < 1) {R : ℝ} (hR : 0 ≤ R) (Q : ℕ) (hQ : (Q + 1) * u < 1) :
    signedResidualError u R Q ≤ 2 * (Q + 1) * u / (1 - (Q + 1) * u) * R := by
  have h1 : 1 - (Q + 1) * u ≤ (1 - u) ^ (Q + 1) := by
    have := one_add_mul_le_pow (a := -u) (by linarith) (Q + 1)
    rw [show (1 : ℝ) + -u = 1 - u by ring] at this
    push_cast at this
    linarith
  have h0 : 0 < 1 - (Q + 1) * u := by linarith
  have h2 : 1 / (1 - u) ^ (Q + 1) ≤ 1 / (1 - (Q + 1) * u) := one_div_le_one_div_of_le h0 h1
  have e : 2 * (Q + 1) * u / (1 - (Q + 1) * u) * R = (1 / (1 - (Q + 1) * u) - 1) * (2 * R) := by
    field_simp
    ring
  rw [e]
  exact mul_le_mul_of_nonneg_right (by linarith) (by linarith)

section
variable {pw : ℕ → ℝ → ℝ} {ex : ℝ → ℝ} {l s : ℝ} {d c : ℕ}

theorem SignedHerding.exp_symm (K : ExpKind) (x y : Vec d) : K.compute l s x y = K.compute l s y x := by
  rw [RExp.compute_eq, RExp.compute_eq]
  congr 4
  cases K
  · simp only [ExpDistance, sub_sq_comm]
  · simp only [ExpDistance, abs_sub_comm]
  · simp only [ExpDistance, sub_sq_comm]

theorem SignedHerding.exp_psd (hl : 0 < l) (hs : 0 < s) (K : ExpKind) : IsPSD (K.compute l s (d := d)) := by
  cases K
  · exact C08_psd (KExpr.exponential l s) (by simp [KExpr.check, checkPos, hl.not_ge, hs.not_ge, bind, Except.bind]) trivial
  · exact C08_psd (KExpr.laplacian l s) (by simp [KExpr.check, checkPos, hl.not_ge, hs.not_ge, bind, Except.bind]) trivial
  · exact C08_psd (KExpr.squaredExponential l s) (by simp [KExpr.check, checkPos, hl.not_ge, hs.not_ge, bind, Except.bind]) trivial

/-- C117, the exponential kernels: herding as it runs by default, with the kernel evaluated in the same arithmetic, on equally weighted data; no assumption on the points. -/
theorem C117_exponential (hu0 : 0 ≤ u) (hu : u < 1) (ho : Rounding u o) (hpw : PowRounding u pw) (hex : ExpRounding u c ex) (hd : 0 < d) (hl : 0 < l) (hs : 0 < s)
    (K : ExpKind) (pre : Data n (Vec d) ℝ) (huw : UniformWeights pre.weights) (size : ℕ) (hsize : 0 < size) (hpos : PosCount pre.weights size)
    (bs : PyTree (Option ℤ)) (bx bY : Option ℤ) (hbs : treeLeavesRepeat bs 2 = [bx, bY]) (ord : List (Fin size)) :
    ∃ (f : Fin size → Fin n) (rm : List ℝ), flHerdingReduce o (flExp o pw ex K l s) true bs size pre ord = .ok (⟨fun t => (f t : ℤ), fun _ => 1⟩, rm) ∧
      Function.Injective f ∧
      mmdSq (K.compute l s) pre.data pre.weights (fun t => pre.data (f t)) (fun _ => 1)
        ≤ s / size + 2 * signedResidualError u s (max (rowMeanRoundings (expRoundings K d + c + 1) n bx) (expRoundings K d + c + 1 + size)) * (size + 1) / size := by
  obtain ⟨f, rm, h1, h2, h3⟩ := C117_rate_unique hu0 hu ho (fun _ _ => s) (K.compute l s) (flExp o pw ex K l s) (exp_symm K) (expRoundings K d + c + 1)
    (fun a b => C116_kernel hu0 hu ho hpw hex hd hl hs K a b) pre (fun e => (exp_psd hl hs K).2 n pre.data e) huw size hsize hpos s (fun _ _ => le_rfl) bs bx bY hbs ord
  refine ⟨f, rm, h1, h2, h3.trans (add_le_add (div_le_div_of_nonneg_right ?_ (Nat.cast_nonneg _)) le_rfl)⟩
  obtain ⟨e, he, hw⟩ := huw
  have hw0 : ∀ j, 0 ≤ pre.weights j := fun j => by rcases hw j with h | h <;> rw [h]; exact he.le
  have : 0 ≤ avg pre.weights fun i => avg pre.weights fun j => K.compute l s (pre.data i) (pre.data j) := by
    unfold avg
    refine div_nonneg (Finset.sum_nonneg fun i _ => mul_nonneg (hw0 i) (div_nonneg (Finset.sum_nonneg fun j _ => mul_nonneg (hw0 j) ?_) (Finset.sum_nonneg fun j _ => hw0 j)))
      (Finset.sum_nonneg fun j _ => hw0 j)
    change 0 ≤ K.compute l s _ _
    rw [RExp.compute_eq]
    positivity
  linarith

end

/-! ### Cases -/

/-- Exact arithmetic: no extra term. -/
example (R : ℝ) (Q : ℕ) : signedResidualError 0 R Q = 0 := by simp [signedResidualError]

/-- Single precision, the squared exponential kernel in ten dimensions, 1000 rows and up to 2000 points: the error of a residual is less than `s/4000`. -/
example : max (rowMeanRoundings (expRoundings .squaredExponential 10 + 1 + 1) 1000 none) (expRoundings .squaredExponential 10 + 1 + 1 + 1000) = 2017 ∧
    signedResidualError ((1 / 2) ^ 24) 1 2017 < 1 / 4000 := by
  refine ⟨by decide +kernel, (C117_error_size (by norm_num) (by norm_num) zero_le_one 2017 (by norm_num)).trans_lt ?_⟩
  norm_num

/-- A kernel with values of either sign, in single precision. -/
example (unique : Bool) := C117_nearly_greedy (u := (1 / 2) ^ 24) (by norm_num) (by norm_num) (roundedOps_rounding fun a => binaryRound_error 23 a)
    (fun a b : ℝ => |a * b|) (fun a b => a * b) (fun a b => binaryRound 23 (a * b)) (fun a b => mul_comm a b) (0 + 1)
    (fun a b => Within.round_after (by norm_num) (by norm_num) (Within.refl _ _) (binaryRound_error 23 _)) ⟨![1, -2, 3], ![3, 2, 1]⟩
    (by intro j; fin_cases j <;> norm_num) (by simp [Fin.sum_univ_three]; norm_num)
    9 (fun i j => by fin_cases i <;> fin_cases j <;> norm_num [abs_le]) unique 2 (by norm_num)
    (by cases unique <;> simp [PosCount, Finset.filter_true_of_mem, Fin.forall_fin_succ, Fin.exists_fin_succ]) (.leaf none) none none rfl (List.finRange 2)

example := C117_rate (u := (1 / 2) ^ 24) (by norm_num) (by norm_num) (roundedOps_rounding fun a => binaryRound_error 23 a)
    (fun a b : ℝ => |a * b|) (fun a b => a * b) (fun a b => binaryRound 23 (a * b)) (fun a b => mul_comm a b) (0 + 1)
    (fun a b => Within.round_after (by norm_num) (by norm_num) (Within.refl _ _) (binaryRound_error 23 _)) ⟨![1, -2, 3], ![3, 2, 1]⟩
    (by intro j; fin_cases j <;> norm_num) (by simp [Fin.sum_univ_three]; norm_num)
    9 (fun i j => by fin_cases i <;> fin_cases j <;> norm_num [abs_le]) 2 (by norm_num) (by norm_num) (.leaf none) none none rfl (List.finRange 2)

example := C117_rate_unique (u := (1 / 2) ^ 24) (by norm_num) (by norm_num) (roundedOps_rounding fun a => binaryRound_error 23 a)
    (fun a b : ℝ => |a * b|) (fun a b => a * b) (fun a b => binaryRound 23 (a * b)) (fun a b => mul_comm a b) (0 + 1)
    (fun a b => Within.round_after (by norm_num) (by norm_num) (Within.refl _ _) (binaryRound_error 23 _)) ⟨![1, -2, 3], ![1, 1, 1]⟩
    (fun c => by
      rw [show (∑ i, ∑ j, c i * c j * (![1, -2, 3] i * ![1, -2, 3] j : ℝ)) = (∑ i, c i * ![1, -2, 3] i) ^ 2 by
        rw [sq, Finset.sum_mul_sum]
        exact Finset.sum_congr rfl fun i _ => Finset.sum_congr rfl fun j _ => by ring]
      positivity)
    ⟨1, by norm_num, by intro i; fin_cases i <;> simp⟩ 2 (by norm_num) (by simp [PosCount, Finset.filter_true_of_mem, Fin.forall_fin_succ])
    9 (fun i j => by fin_cases i <;> fin_cases j <;> norm_num [abs_le]) (.leaf none) none none rfl (List.finRange 2)

example := C117_exponential (u := (1 / 2) ^ 24) (by norm_num) (by norm_num) (roundedOps_rounding fun a => binaryRound_error 23 a)
    (roundedPow_rounding (by norm_num) (by norm_num) fun a => binaryRound_error 23 a) binaryExp_rounding (d := 2) (by norm_num) (l := 1 / 2) (s := 3)
    (by norm_num) (by norm_num) .squaredExponential (n := 3) ⟨![![0, 1], ![1 / 3, -1], ![5, 7]], ![1, 1, 1]⟩
    ⟨1, by norm_num, by intro i; fin_cases i <;> simp⟩ 2 (by norm_num) (by simp [PosCount, Finset.filter_true_of_mem, Fin.forall_fin_succ])
    (.leaf (some 2)) (some 2) (some 2) rfl (List.finRange 2)

end Coreax
