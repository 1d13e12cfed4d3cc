import Verif.Lemmas.Greedy

/-!
# From the loop invariant to the specification of a greedy run
-/

set_option linter.unusedSectionVars false

namespace Coreax

variable {X K : Type*} [Zero X] [Field K] [LinearOrder K] [IsStrictOrderedRing K]
variable {n : ℕ} [NeZero n] {m : ℕ}

namespace Greedy

/-- The coreset members as rows. -/
def members (c : Data m ℤ K) : Fin m → Fin n := fun t => gatherIdx n (c.data t)

/-- The output as rows. -/
def outRows {out : ℕ} (g : Fin (m + (out - m)) → Fin n) : Fin out → Fin n :=
  fun t => g (t.castLE (out_le_padded m out))

theorem sum_castLE {M : Type*} [AddCommMonoid M] {a b : ℕ} (h : a ≤ b) (F : Fin b → M)
    (hF : ∀ t : Fin b, a ≤ t → F t = 0) : ∑ t, F t = ∑ t : Fin a, F (t.castLE h) := by
  refine (Fintype.sum_of_injective (Fin.castLE h) (Fin.castLE_injective h) _ _ (fun t ht => hF t ?_)
    (fun _ => rfl)).symm
  by_contra hlt
  exact ht ⟨⟨t, by omega⟩, rfl⟩

theorem restSum_eq (off : Fin n → K) (k : X → X → K) (x : Fin n → X) (c : Data m ℤ K) {out : ℕ}
    (g : Fin (m + (out - m)) → Fin n) (i : Fin out) (j : Fin n) :
    restSum off k x (padIndices c out).weights g (rows c out) (i.castLE (out_le_padded m out)) j
      = off j + Spec.otherSum k x (members c) c.weights (outRows g) i j := by
  unfold restSum Spec.otherSum
  congr 1
  set i' := i.castLE (out_le_padded m out) with hi'
  have e : ∀ t, (if t < i' ∨ (t ≠ i' ∧ (padIndices c out).weights t > 0) then k (x j) (x (cur g (rows c out) i' t)) else 0)
      = (if t < i' then k (x j) (x (g t)) else 0) +
        (if i' < t ∧ (padIndices c out).weights t > 0 then k (x j) (x (rows c out t)) else 0) := by
    intro t
    unfold cur
    rcases lt_trichotomy t i' with h | h | h
    · simp [h, h.not_gt]
    · simp [h]
    · simp only [h.not_gt, h, h.ne', false_or, ne_eq, not_false_eq_true, true_and, if_false, zero_add]
  rw [Finset.sum_congr rfl (fun t _ => e t), Finset.sum_add_distrib]
  congr 1
  · rw [sum_castLE (out_le_padded m out)]
    · refine Finset.sum_congr rfl (fun t _ => ?_)
      have : t.castLE (out_le_padded m out) < i' ↔ t < i := Iff.rfl
      simp only [this, outRows]
    · intro t ht
      rw [if_neg]
      rw [Fin.lt_def, hi']
      simp only [Fin.val_castLE]
      have := i.2
      omega
  · rw [Fin.sum_univ_add]
    simp only [padIndices, zeroPad, Fin.append_left, Fin.append_right, lt_irrefl, and_false, if_false,
      Finset.sum_const_zero, add_zero, gt_iff_lt]
    refine Finset.sum_congr rfl (fun t _ => ?_)
    have : i' < Fin.castAdd (out - m) t ↔ (i : ℕ) < t := by simp [hi', Fin.lt_def]
    simp only [this, rows, members, padIndices, zeroPad, Fin.append_left]

theorem count_eq (c : Data m ℤ K) {out : ℕ} (i : Fin out) :
    (Finset.univ.filter (fun t : Fin (m + (out - m)) => t ≤ i.castLE (out_le_padded m out) ∨
      (padIndices c out).weights t > 0)).card = Spec.otherCount c.weights i + 1 := by
  set i' := i.castLE (out_le_padded m out) with hi'
  rw [Finset.card_filter, Spec.otherCount, Finset.card_filter]
  have e : ∀ t, (if t ≤ i' ∨ (padIndices c out).weights t > 0 then 1 else 0 : ℕ)
      = ((if t < i' then 1 else 0) + (if t = i' then 1 else 0)) +
        (if i' < t ∧ (padIndices c out).weights t > 0 then 1 else 0) := by
    intro t
    rcases lt_trichotomy t i' with h | h | h
    · simp [h, h.not_gt, h.le, h.ne]
    · simp [h]
    · simp [h, h.not_gt, h.ne', h.not_ge]
  rw [Finset.sum_congr rfl (fun t _ => e t), Finset.sum_add_distrib, Finset.sum_add_distrib]
  have h1 : (∑ t, if t < i' then 1 else 0 : ℕ) = i := by
    rw [← Finset.card_filter]
    have : Finset.univ.filter (fun t => t < i') = Finset.Iio i' := by ext; simp
    rw [this, Fin.card_Iio]
    simp [hi']
  have h2 : (∑ t, if t = i' then 1 else 0 : ℕ) = 1 := by simp
  rw [h1, h2, Fin.sum_univ_add]
  simp only [padIndices, zeroPad, Fin.append_left, Fin.append_right, lt_irrefl, and_false, if_false,
      Finset.sum_const_zero, add_zero, gt_iff_lt]
  have : ∀ t : Fin m, i' < Fin.castAdd (out - m) t ↔ (i : ℕ) < t := by intro t; simp [hi', Fin.lt_def]
  simp only [this]
  omega

/-- No index occurs both with a positive weight and with weight zero (the zero padding counts).  Otherwise the
temporary mask has conflicting writes. -/
def NoConflict (c : Data m ℤ K) (n : ℕ) [NeZero n] (out : ℕ) : Prop :=
  ∀ t t', rows (n := n) c out t = rows c out t' → (padIndices c out).weights t > 0 → (padIndices c out).weights t' > 0

theorem masked_fin_iff {off : Fin n → K} {k : X → X → K} {x : Fin n → X} {w : Fin n → K} {unique : Bool}
    {c : Data m ℤ K} {out : ℕ} {g : Fin (m + (out - m)) → Fin n} {i : Fin out} {mp : Fin n → Ext K}
    (hnc : unique = true → NoConflict c n out)
    (h : MaskOK off k x w unique (padIndices c out).weights g (rows c out) (i.castLE (out_le_padded m out)) mp)
    (j : Fin n) (v : K) :
    mp j = Ext.fin v ↔ Spec.Allowed w unique (members c) c.weights (outRows g) i j ∧
      v = off j + Spec.otherSum k x (members c) c.weights (outRows g) i j := by
  classical
  rw [← restSum_eq]
  set i' := i.castLE (out_le_padded m out) with hi'
  -- earlier positions
  have hearly : (∃ t, t < i' ∧ g t = j) ↔ ∃ t : Fin out, t < i ∧ outRows g t = j := by
    constructor
    · rintro ⟨t, ht, hg⟩
      rw [Fin.lt_def, hi', Fin.val_castLE] at ht
      exact ⟨⟨t, by have := i.2; omega⟩, ht, hg⟩
    · rintro ⟨t, ht, hg⟩
      exact ⟨t.castLE (out_le_padded m out), ht, hg⟩
  -- later members
  have hlate : (∃ t, i' < t ∧ Other (padIndices c out).weights g (rows c out) i' t j) ↔
      ∃ t : Fin m, (i : ℕ) < t ∧ 0 < c.weights t ∧ members c t = j ∧ rows c out i' ≠ j := by
    constructor
    · rintro ⟨t, ht, ho1, ho2, ho3⟩
      rw [cur, if_neg ht.not_gt] at ho1 ho2
      revert ht ho1 ho2 ho3
      refine Fin.addCases (fun a => ?_) (fun a => ?_) t
      · intro ht ho1 ho2 ho3
        refine ⟨a, by rw [Fin.lt_def, hi'] at ht; simpa using ht, by simpa [padIndices, zeroPad] using ho3, ?_, ?_⟩
        · rw [← ho1]; simp [members, rows, padIndices, zeroPad]
        · rw [← ho1]; exact ho2.symm
      · intro ht ho1 ho2 ho3
        simp [padIndices, zeroPad] at ho3
    · rintro ⟨t, ht, h1, h2, h3⟩
      have hlt : i' < Fin.castAdd (out - m) t := by rw [Fin.lt_def]; exact ht
      have hr : rows c out (Fin.castAdd (out - m) t) = j := by
        rw [← h2]; simp [members, rows, padIndices, zeroPad]
      refine ⟨Fin.castAdd (out - m) t, hlt, ?_, ?_, ?_⟩
      · rw [cur, if_neg hlt.not_gt, hr]
      · rw [cur, if_neg hlt.not_gt, hr]; exact h3.symm
      · simpa [padIndices, zeroPad] using h1
  have hown : ∀ t : Fin m, (i : ℕ) < t → (rows (n := n) c out i' = j ↔ ∃ h : (i : ℕ) < m, (members c ⟨i, h⟩ : Fin n) = j) := by
    intro t ht
    have him : (i : ℕ) < m := by omega
    have e : i' = Fin.castAdd (out - m) ⟨i, him⟩ := by
      apply Fin.ext; simp [hi']
    have e2 : (rows c out i' : Fin n) = members c ⟨i, him⟩ := by
      rw [e]; simp only [members, rows, padIndices, zeroPad, Fin.append_left]
    rw [e2]
    exact ⟨fun h => ⟨him, h⟩, fun ⟨_, h⟩ => h⟩
  have hallowed : Spec.Allowed w unique (members c) c.weights (outRows g) i j ↔
      0 < w j ∧ (unique = true → (¬ ∃ t, t < i' ∧ g t = j) ∧
        ¬ ∃ t, i' < t ∧ Other (padIndices c out).weights g (rows c out) i' t j) := by
    unfold Spec.Allowed
    rw [hearly, hlate]
    refine and_congr Iff.rfl (imp_congr Iff.rfl (and_congr ?_ ?_))
    · push Not; rfl
    · constructor
      · rintro h ⟨t, h1, h2, h3, h4⟩
        exact h4 ((hown t h1).2 (h t h1 h2 h3))
      · intro h t h1 h2 h3
        by_contra hcon
        exact h ⟨t, h1, h2, h3, fun hh => hcon ((hown t h1).1 hh)⟩
  rw [hallowed]
  constructor
  · intro hv
    have hval : mp j = validPen off k x w unique (padIndices c out).weights g (rows c out) i' j := by
      rcases h.cases j with hh | ⟨hh, -⟩
      · exact hh
      · rw [hh] at hv; cases hv
    rw [hval, validPen] at hv
    split_ifs at hv with hw hc
    injection hv with hv
    refine ⟨⟨hw, fun hu => ?_⟩, hv.symm⟩
    have hne : ¬ ∃ t, t < i' ∧ g t = j := fun hh => hc ⟨hu, hh⟩
    refine ⟨hne, ?_⟩
    rintro ⟨t, ht, ho⟩
    have hpinf : mp j = Ext.pinf := by
      refine h.masked j hu ⟨t, ho⟩ (fun t' ht' => ?_)
      unfold cur at ht'
      split_ifs at ht' with hlt
      · exact absurd ⟨t', hlt, ht'⟩ hne
      · refine hnc hu t t' ?_ ho.2.2
        rw [ht', ← ho.1, cur, if_neg ht.not_gt]
    rw [hval, validPen, if_pos hw, if_neg hc] at hpinf
    cases hpinf
  · rintro ⟨⟨hw, hall⟩, rfl⟩
    rcases h.cases j with hh | ⟨-, hu, t, ho⟩
    · rw [hh, validPen, if_pos hw, if_neg]
      rintro ⟨hu, hex⟩
      exact (hall hu).1 hex
    · exfalso
      rcases lt_trichotomy t i' with hlt | heq | hgt
      · exact (hall hu).1 ⟨t, hlt, by rw [← ho.1, cur, if_pos hlt]⟩
      · apply ho.2.1
        rw [heq, cur, if_neg (lt_irrefl _)]
      · exact (hall hu).2 ⟨t, hgt, ho⟩

/-! ### The selection functions -/

/-- `j` is the first row of numeric penalty at which `score size j penalty` is greatest. -/
def FirstBest (score : ℕ → ℕ → Fin n → K → K) (i size : ℕ) (mp : Fin n → Ext K) (j : Fin n) : Prop :=
  ∃ v, mp j = Ext.fin v ∧ ∀ j' v', mp j' = Ext.fin v' →
    score i size j' v' ≤ score i size j v ∧ (j' < j → score i size j' v' < score i size j v)

theorem herding_selects (w rm : Fin n → K) :
    Selects w (herdingSelect none rm) (FirstBest (fun _ size j v => rm j - v / (size : K))) := by
  intro i mp size hsize hninf _ ⟨j0, v0, hj0⟩
  have hs : (size : K) ≠ 0 := by exact_mod_cast hsize.ne'
  have hfin : ∀ j v, mp j = Ext.fin v → herdingResidual rm mp size j = Ext.fin (rm j - v / size) := by
    intro j v hj
    simp [herdingResidual, hj, Ext.fin_div_fin hs]
  have hback : ∀ j v, herdingResidual rm mp size j = Ext.fin v → ∃ v', mp j = Ext.fin v' ∧ v = rm j - v' / size := by
    intro j v hj
    rcases hm : mp j with _ | _ | v' | _
    · simp [herdingResidual, hm] at hj
    · exact absurd hm (hninf j)
    · refine ⟨v', rfl, ?_⟩
      rw [hfin j v' hm] at hj
      injection hj with hj
      exact hj.symm
    · simp [herdingResidual, hm, Ext.pinf_div_fin (Nat.cast_nonneg (α := K) size)] at hj
  obtain ⟨j, v, hsel, hj, hbest⟩ := nanargmax_spec (herdingResidual rm mp size) (fun j => by
      rcases hm : mp j with _ | _ | v' | _
      · simp [herdingResidual, hm]
      · exact absurd hm (hninf j)
      · simp [hfin j v' hm]
      · simp [herdingResidual, hm, Ext.pinf_div_fin (Nat.cast_nonneg (α := K) size)])
    ⟨j0, _, hfin j0 v0 hj0⟩
  obtain ⟨v', hv', rfl⟩ := hback j v hj
  refine ⟨j, v', hsel, hv', v', hv', ?_⟩
  intro j' u' hu'
  exact hbest j' _ (hfin j' u' hu')

theorem stein_selects (w diag lap logp : Fin n → K) :
    Selects w (steinSelect diag lap logp)
      (FirstBest (fun i _ j v => -(diag j + lap j - ((i : K) + 1) * logp j + 2 * v))) := by
  intro i mp size hsize hninf _ ⟨j0, v0, hj0⟩
  have hpin : (Ext.fin (2 : K) * Ext.pinf : Ext K) = Ext.pinf := Ext.fin_mul_pinf (by norm_num)
  have hfin : ∀ j v, mp j = Ext.fin v → steinObjective diag lap logp i mp j
      = Ext.fin (diag j + lap j - ((i : K) + 1) * logp j + 2 * v) := by
    intro j v hj
    simp only [steinObjective, hj, Ext.fin_mul_fin, Ext.fin_add_fin, Ext.fin_sub_fin]
    congr 1
    ring
  have hback : ∀ j v, steinObjective diag lap logp i mp j = Ext.fin v →
      ∃ v', mp j = Ext.fin v' ∧ v = diag j + lap j - ((i : K) + 1) * logp j + 2 * v' := by
    intro j v hj
    rcases hm : mp j with _ | _ | v' | _
    · simp [steinObjective, hm] at hj
    · exact absurd hm (hninf j)
    · refine ⟨v', rfl, ?_⟩
      rw [hfin j v' hm] at hj
      injection hj with hj
      exact hj.symm
    · simp [steinObjective, hm, hpin] at hj
  obtain ⟨j, v, hsel, hj, hbest⟩ := nanargmin_spec (steinObjective diag lap logp i mp) (fun j => by
      rcases hm : mp j with _ | _ | v' | _
      · simp [steinObjective, hm]
      · exact absurd hm (hninf j)
      · simp [hfin j v' hm]
      · simp [steinObjective, hm, hpin])
    ⟨j0, _, hfin j0 v0 hj0⟩
  obtain ⟨v', hv', rfl⟩ := hback j v hj
  refine ⟨j, v', hsel, hv', v', hv', ?_⟩
  intro j' u' hu'
  have := hbest j' _ (hfin j' u' hu')
  simp only [neg_le_neg_iff, neg_lt_neg_iff]
  exact this

/-- A run whose selection is `FirstBest` satisfies the specification of a greedy run. -/
theorem run_spec {off : Fin n → K} {k : X → X → K} {x : Fin n → X} {w : Fin n → K} {unique : Bool}
    {c : Data m ℤ K} {out : ℕ} {g : Fin (m + (out - m)) → Fin n} {score : ℕ → ℕ → Fin n → K → K}
    {s : GreedyState n (m + (out - m)) K}
    (hnc : unique = true → NoConflict c n out)
    (h : Inv off k x w unique (padIndices c out).weights (FirstBest score) (rows c out) out s g)
    (i : Fin out) :
    Spec.IsFirstMax (Spec.Allowed w unique (members c) c.weights (outRows g) i)
      (fun j => score i (Spec.otherCount c.weights i + 1) j
        (off j + Spec.otherSum k x (members c) c.weights (outRows g) i j)) (outRows g i) := by
  obtain ⟨mp, hmask, hbest⟩ := h.step (i.castLE (out_le_padded m out)) i.2
  rw [count_eq] at hbest
  simp only [Fin.val_castLE] at hbest
  have hiff := masked_fin_iff hnc hmask
  obtain ⟨v, hv, hb⟩ := hbest
  obtain ⟨hal, rfl⟩ := (hiff _ v).1 hv
  exact ⟨hal, fun l hl => (hb l _ ((hiff l _).2 ⟨hl, rfl⟩)).1,
    fun l hlt hl => (hb l _ ((hiff l _).2 ⟨hl, rfl⟩)).2 hlt⟩

end Greedy

end Coreax
