import Verif.Model.IterativeHerding
import Verif.Props.ProbabilisticHerding
import Verif.Props.HerdingLaws

/-!
# C74: iterative herding with temperatures
-/

set_option linter.unusedSectionVars false

namespace Coreax

open Spec MeasureTheory Greedy

/-! ### One pass of refinement -/

/-- What a refinement pass chooses from in step `i`, when the old coreset is `c` and the rows `s 0, …, s (i - 1)` have been chosen: minus infinity for a row that is
in the coreset (if rows are to be distinct), otherwise its mean similarity to the data less that to the other members. -/
noncomputable def Spec.refineScores {X : Type*} {n : ℕ} (k : X → X → ℝ) (x : Fin n → X) (r : Fin n → ℝ) (unique : Bool) (size : ℕ) (c : ℕ → Fin n) (i : ℕ) (s : ℕ → Fin n)
    (j : Fin n) : Ext ℝ :=
  open Classical in
  if unique = true ∧ ((∃ t < i, s t = j) ∨ ∃ t, i < t ∧ t < size ∧ c t = j ∧ c i ≠ j) then .ninf
  else .fin (r j - (∑ t ∈ Finset.range i, k (x j) (x (s t)) + ∑ t ∈ Finset.Ico (i + 1) size, k (x j) (x (c t))) / (size : ℝ))

section
variable {X : Type*} [Zero X] {n : ℕ} [NeZero n]

theorem C74_refine_run (big : ℝ) (k : X → X → ℝ) (hk : ∀ a b, k a b = k b a) (draw : Draw n ℝ) (unique : Bool)
    (bs : PyTree (Option ℤ)) (hbs : ValidBlock bs) (size : ℕ) (hsize : 0 < size) (hle : size ≤ n) (pre : Data n X ℝ)
    (hd : DrawContract (some draw) pre.weights) (c : ℕ → Fin n) {u : ℝ} (hu : 0 < u) (state : Option (List ℝ)) (hst : ∀ l, state = some l → gramianRowMean big k pre bs = .ok l)
    (ord : List (Fin (size + (size - size)))) (hord : ∀ t, t ∈ ord) :
    ∃ f : Fin size → Fin n, herdingRefine big k (some draw) unique bs size pre ⟨fun t => (c t : ℤ), fun _ => u⟩ state ord
        = .ok (⟨fun t => (f t : ℤ), fun _ => 1⟩, List.ofFn fun j => avg pre.weights fun i => k (pre.data i) (pre.data j)) ∧
      ∀ i : Fin size, draw i (refineScores k pre.data (fun j => avg pre.weights fun l => k (pre.data l) (pre.data j)) unique size c i (extend f)) = (f i : ℤ) := by
  classical
  have hw := (hd draw rfl).1
  have hW : 0 < ∑ j, pre.weights j := Finset.sum_pos (fun j _ => hw j) ⟨0, Finset.mem_univ _⟩
  have hpos : PosCount pre.weights size := by
    unfold PosCount
    rw [Finset.filter_true_of_mem fun j _ => hw j, Finset.card_univ, Fintype.card_fin]
    exact hle
  have hen : Enough pre.weights unique (size + (size - size)) := enough_of_posCount (by omega) (by simpa using hpos)
  set d : Data size ℤ ℝ := ⟨fun t => (c t : ℤ), fun _ => u⟩ with hddef
  have hcw : ∀ t, (padIndices d size).weights t = u := by
    intro t
    refine Fin.addCases (fun a => ?_) (fun a => ?_) t
    · simp [padIndices, zeroPad, hddef]
    · exact absurd a.2 (by omega)
  have hin : Greedy.InRange (K := ℝ) n d := by
    intro t
    have := (c t).2
    exact ⟨by simp [hddef], by simp [hddef]⟩
  have hmem : members (K := ℝ) d = fun t : Fin size => c t := by
    funext t; simp [members, hddef]
  have hrm := Greedy.rowMean_of_state big k hk pre hW.ne' bs hbs state hst
  set rm : Fin n → ℝ := fun j => avg pre.weights fun l => k (pre.data l) (pre.data j) with hrmdef
  obtain ⟨off, s, g, hrun, hinv, hoff⟩ := Greedy.run big k pre hbs unique (draw_selects hd (asVec n (List.ofFn rm))) hsize d hin hord hen
  refine ⟨outRows g, ?_, fun i => ?_⟩
  · unfold herdingRefine
    rw [hrm]
    simp only [hrun]
    rfl
  · obtain ⟨mp, hmask, hdraw⟩ := hinv.step (i.castLE (out_le_padded size size)) i.2
    rw [count_eq] at hdraw
    simp only [Fin.val_castLE] at hdraw
    rw [show outRows g i = g (i.castLE (out_le_padded size size)) from rfl, ← hdraw]
    congr 1
    have hcount : Spec.otherCount d.weights i + 1 = size := by
      unfold otherCount
      have : (Finset.univ.filter (fun t : Fin size => (i : ℕ) < t ∧ 0 < d.weights t)) = Finset.Ioi i := by
        ext t; simp [hddef, hu]
      rw [this, Fin.card_Ioi]
      omega
    have hext : ∀ t : Fin size, extend (outRows g) t = outRows g t := fun t => by simp [extend]
    funext j
    have hiff := fun v => masked_fin_iff (fun _ t t' _ _ => by rw [hcw]; exact hu) hmask j v
    rw [hmem] at hiff
    have hallow : Spec.Allowed pre.weights unique (fun t : Fin size => c t) d.weights (outRows g) i j ↔
        ¬ (unique = true ∧ ((∃ t < (i : ℕ), extend (outRows g) t = j) ∨ ∃ t, (i : ℕ) < t ∧ t < size ∧ c t = j ∧ c i ≠ j)) := by
      constructor
      · rintro ⟨-, h⟩ ⟨h1, h2 | ⟨t, h3, h4, h5, h6⟩⟩
        · obtain ⟨t, ht, e⟩ := h2
          rw [hext ⟨t, ht.trans i.2⟩] at e
          exact (h h1).1 ⟨t, ht.trans i.2⟩ ht e
        · exact h6 ((h h1).2 ⟨t, h4⟩ h3 hu h5).2
      · intro h
        refine ⟨hw j, fun h1 => ⟨fun t ht e => h ⟨h1, Or.inl ⟨t, ht, by rw [hext]; exact e⟩⟩, fun t ht _ e => ⟨i.2, ?_⟩⟩⟩
        by_contra hne
        exact h ⟨h1, Or.inr ⟨t, ht, t.2, e, hne⟩⟩
    have hsum : otherSum k pre.data (fun t : Fin size => c t) d.weights (outRows g) i j
        = ∑ t ∈ Finset.range i, k (pre.data j) (pre.data (extend (outRows g) t)) + ∑ t ∈ Finset.Ico ((i : ℕ) + 1) size, k (pre.data j) (pre.data (c t)) := by
      unfold otherSum
      congr 1
      · rw [sum_castLE i.2.le, Finset.sum_range]
        · refine Finset.sum_congr rfl fun t _ => ?_
          rw [if_pos (by rw [Fin.lt_def]; exact t.2), ← hext (t.castLE i.2.le)]
          rfl
        · intro t ht
          rw [if_neg (by rw [Fin.lt_def]; simpa using ht)]
      · rw [Fin.sum_univ_eq_sum_range (fun t => if (i : ℕ) < t ∧ 0 < u then k (pre.data j) (pre.data (c t)) else 0) size, ← Finset.sum_filter]
        refine Finset.sum_congr ?_ fun _ _ => rfl
        ext t
        simp only [Finset.mem_filter, Finset.mem_range, Finset.mem_Ico, hu, and_true]
        omega
    unfold refineScores herdingResidual
    rw [hcount, asVec_ofFn]
    by_cases hc : Spec.Allowed pre.weights unique (fun t : Fin size => c t) d.weights (outRows g) i j
    · rw [if_neg (hallow.1 hc), (hiff _).2 ⟨hc, rfl⟩, hoff ⟨u, hu, fun _ => Or.inr rfl⟩, zero_add, hsum, Ext.fin_div_fin (by positivity), Ext.fin_sub_fin]
    · rw [if_pos (not_not.1 fun h => hc (hallow.2 h))]
      have : mp j = .pinf := by
        rcases hmask.cases j with h | h
        · unfold validPen at h
          rw [if_pos (hw j)] at h
          split_ifs at h
          · exact h
          · exact absurd ((hiff _).1 h).1 hc
        · exact h.1
      rw [this, Ext.pinf_div_fin (by positivity)]
      rfl

end

theorem refineScores_congr {X : Type*} {n : ℕ} (k : X → X → ℝ) (x : Fin n → X) (r : Fin n → ℝ) (unique : Bool) {size : ℕ} {c c' : ℕ → Fin n} {i : ℕ} {s s' : ℕ → Fin n}
    (hi : i < size) (hc : ∀ t < size, c t = c' t) (h : ∀ t < i, s t = s' t) : refineScores k x r unique size c i s = refineScores k x r unique size c' i s' := by
  funext j
  unfold refineScores
  have e1 : (∃ t < i, s t = j) ↔ ∃ t < i, s' t = j :=
    ⟨fun ⟨t, ht, e⟩ => ⟨t, ht, by rw [← h t ht, e]⟩, fun ⟨t, ht, e⟩ => ⟨t, ht, by rw [h t ht, e]⟩⟩
  have e2 : ∑ t ∈ Finset.range i, k (x j) (x (s t)) = ∑ t ∈ Finset.range i, k (x j) (x (s' t)) :=
    Finset.sum_congr rfl fun t ht => by rw [h t (Finset.mem_range.1 ht)]
  have e3 : (∃ t, i < t ∧ t < size ∧ c t = j ∧ c i ≠ j) ↔ ∃ t, i < t ∧ t < size ∧ c' t = j ∧ c' i ≠ j := by
    constructor
    · rintro ⟨t, h1, h2, h3, h4⟩
      exact ⟨t, h1, h2, by rw [← hc t h2, h3], by rwa [← hc i hi]⟩
    · rintro ⟨t, h1, h2, h3, h4⟩
      exact ⟨t, h1, h2, by rw [hc t h2, h3], by rwa [hc i hi]⟩
  have e4 : ∑ t ∈ Finset.Ico (i + 1) size, k (x j) (x (c t)) = ∑ t ∈ Finset.Ico (i + 1) size, k (x j) (x (c' t)) :=
    Finset.sum_congr rfl fun t ht => by rw [hc t (Finset.mem_Ico.1 ht).2]
  rw [e2, e4]
  have e5 := and_congr (Iff.refl (unique = true)) (or_congr e1 e3)
  by_cases h5 : unique = true ∧ ((∃ t < i, s t = j) ∨ ∃ t, i < t ∧ t < size ∧ c t = j ∧ c i ≠ j)
  · rw [if_pos h5, if_pos (e5.1 h5)]
  · rw [if_neg h5, if_neg fun h6 => h5 (e5.2 h6)]

theorem refineScores_ok {X : Type*} {n : ℕ} (k : X → X → ℝ) (x : Fin n → X) (r : Fin n → ℝ) (unique : Bool) {size : ℕ} (hle : size ≤ n) (c : ℕ → Fin n) {i : ℕ} (hi : i < size)
    (s : ℕ → Fin n) : (∀ j, refineScores k x r unique size c i s j ≠ .nan) ∧ (∀ j, refineScores k x r unique size c i s j ≠ .pinf) ∧
      ∃ j v, refineScores k x r unique size c i s j = .fin v := by
  classical
  refine ⟨fun j => ?_, fun j => ?_, ?_⟩
  · unfold refineScores; split_ifs <;> simp
  · unfold refineScores; split_ifs <;> simp
  · obtain ⟨j, hj⟩ : ∃ j : Fin n, j ∉ (Finset.range i).image s ∪ (Finset.Ico (i + 1) size).image c := by
      by_contra hc
      push Not at hc
      have h1 : (Finset.univ : Finset (Fin n)).card ≤ ((Finset.range i).image s ∪ (Finset.Ico (i + 1) size).image c).card := Finset.card_le_card fun j _ => hc j
      have h2 := Finset.card_image_le (s := Finset.range i) (f := s)
      have h3 := Finset.card_image_le (s := Finset.Ico (i + 1) size) (f := c)
      have h4 := Finset.card_union_le ((Finset.range i).image s) ((Finset.Ico (i + 1) size).image c)
      rw [Finset.card_univ, Fintype.card_fin] at h1
      rw [Finset.card_range] at h2
      rw [Nat.card_Ico] at h3
      omega
    rw [Finset.mem_union, not_or] at hj
    refine ⟨j, _, if_neg ?_⟩
    rintro ⟨-, ⟨t, ht, e⟩ | ⟨t, h1, h2, e, -⟩⟩
    · exact hj.1 (Finset.mem_image.2 ⟨t, Finset.mem_range.2 ht, e⟩)
    · exact hj.2 (Finset.mem_image.2 ⟨t, Finset.mem_Ico.2 ⟨h1, h2⟩, e⟩)

/-- The mean score under the Gibbs distribution is at least the score of any candidate less the temperature times `log n`. -/
theorem Spec.IsGibbs.mean_ge_point {n : ℕ} {score : Fin n → Option ℝ} {T : ℝ} (hT : 0 < T) {p : Fin n → ℝ} (h : IsGibbs score T p) {a : Fin n → ℝ}
    (ha : ∀ j v, score j = some v → v = a j) {b : Fin n} (hb : score b ≠ none) : a b - T * Real.log n ≤ ∑ j, p j * a j := by
  classical
  have hS : ∀ j, j ∈ Finset.univ.filter (fun j => score j ≠ none) ↔ score j ≠ none := fun j => by simp
  set S := Finset.univ.filter (fun j => score j ≠ none) with hSdef
  have hbS : b ∈ S := (hS b).2 hb
  have key := h.mean_ge hT (S := S) (a := a) (fun j hj => by
    obtain ⟨v, hv⟩ := Option.ne_none_iff_exists'.1 ((hS j).1 hj)
    rw [hv, ha j v hv]) (fun j hj => not_not.1 fun h => hj ((hS j).2 h)) (q := fun j => if j = b then 1 else 0) (fun j _ => by split_ifs <;> norm_num) (by
      rw [Finset.sum_ite_eq' S b, if_pos hbS])
  have e1 : ∑ j ∈ S, (if j = b then (1 : ℝ) else 0) * a j = a b := by
    simp only [ite_mul, one_mul, zero_mul]
    rw [Finset.sum_ite_eq' S b, if_pos hbS]
  have e2 : ∑ j ∈ S, (if j = b then (1 : ℝ) else 0) * Real.log (if j = b then (1 : ℝ) else 0) = 0 :=
    Finset.sum_eq_zero fun j _ => by split_ifs <;> simp
  rw [e1, e2, zero_add] at key
  refine le_trans ?_ key
  have hc : (0 : ℝ) < S.card := by exact_mod_cast Finset.card_pos.2 ⟨b, hbS⟩
  have hl : Real.log S.card ≤ Real.log n := by
    refine Real.log_le_log hc ?_
    have := Finset.card_le_univ S
    rw [Fintype.card_fin] at this
    exact_mod_cast this
  have := mul_le_mul_of_nonneg_left hl hT.le
  linarith

/-- The members of the coreset when `i` of them have been replaced. -/
def Spec.current {n : ℕ} (c s : ℕ → Fin n) (i t : ℕ) : Fin n := if t < i then s t else c t

section
variable {X : Type*} [Zero X] {n : ℕ} [NeZero n]

/-- One step of a refinement pass at temperature `T`: on average the squared MMD grows by at most `2 T log n / size`. -/
theorem refine_mean_step (k : X → X → ℝ) (hk : ∀ a b, k a b = k b a) (x : Fin n → X) (w : Fin n → ℝ) (hdiag : ∀ i j, k (x i) (x i) = k (x j) (x j)) (unique : Bool)
    {T : ℝ} (hT : 0 < T) {size : ℕ} (c s : ℕ → Fin n) (i : Fin size) (hinj : unique = true → Function.Injective fun t : Fin size => current c s i t) {p : Fin n → ℝ}
    (hp : IsGibbs (fun j => scoreOf (refineScores k x (fun j => avg w fun l => k (x l) (x j)) unique size c i s j)) T p) :
    ∑ j, p j * mmdSq k x w (Function.update (fun t : Fin size => x (current c s i t)) i (x j)) (fun _ => 1)
      ≤ mmdSq k x w (fun t : Fin size => x (current c s i t)) (fun _ => 1) + 2 * T * Real.log n / size := by
  classical
  obtain ⟨C, hC⟩ := Greedy.mmdSq_update k hk x w (fun t : Fin size => x (current c s i t)) i
  have hs : (0 : ℝ) < size := by have := i.pos; positivity
  have hsum : ∀ a, ∑ t ∈ Finset.univ.erase i, k a (x (current c s i t))
      = ∑ t ∈ Finset.range i, k a (x (s t)) + ∑ t ∈ Finset.Ico ((i : ℕ) + 1) size, k a (x (c t)) := by
    intro a
    have h1 := Finset.add_sum_erase Finset.univ (fun t : Fin size => k a (x (current c s i t))) (Finset.mem_univ i)
    rw [Fin.sum_univ_eq_sum_range (fun t => k a (x (current c s i t))) size, ← Finset.sum_range_add_sum_Ico _ i.2.le, Finset.sum_eq_sum_Ico_succ_bot i.2] at h1
    have h2 : ∑ t ∈ Finset.range i, k a (x (current c s i t)) = ∑ t ∈ Finset.range i, k a (x (s t)) :=
      Finset.sum_congr rfl fun t ht => by rw [current, if_pos (Finset.mem_range.1 ht)]
    have h3 : ∑ t ∈ Finset.Ico ((i : ℕ) + 1) size, k a (x (current c s i t)) = ∑ t ∈ Finset.Ico ((i : ℕ) + 1) size, k a (x (c t)) :=
      Finset.sum_congr rfl fun t ht => by rw [current, if_neg (by have := (Finset.mem_Ico.1 ht).1; omega)]
    rw [h2, h3] at h1
    linarith
  set a : Fin n → ℝ := fun j => avg w (fun l => k (x l) (x j)) - (∑ t ∈ Finset.range i, k (x j) (x (s t)) + ∑ t ∈ Finset.Ico ((i : ℕ) + 1) size, k (x j) (x (c t))) / size with ha
  have hm : ∀ j, mmdSq k x w (Function.update (fun t : Fin size => x (current c s i t)) i (x j)) (fun _ => 1) = C - 2 / (size : ℝ) * a j + k (x j) (x j) / (size : ℝ) ^ 2 :=
    fun j => by rw [hC, hsum]
  have hci : current c s i i = c i := by rw [current, if_neg (lt_irrefl _)]
  have hself : mmdSq k x w (fun t : Fin size => x (current c s i t)) (fun _ => 1) = C - 2 / (size : ℝ) * a (c i) + k (x (c i)) (x (c i)) / (size : ℝ) ^ 2 := by
    rw [← hm]
    congr 1
    funext t
    by_cases ht : t = i
    · subst ht; rw [Function.update_self, hci]
    · rw [Function.update_of_ne ht]
  have hallow : ¬ (unique = true ∧ ((∃ t < (i : ℕ), s t = c i) ∨ ∃ t, (i : ℕ) < t ∧ t < size ∧ c t = c i ∧ c i ≠ c i)) := by
    rintro ⟨hu, ⟨t, ht, e⟩ | ⟨t, -, -, -, h⟩⟩
    · have := @hinj hu ⟨t, ht.trans i.2⟩ i (by
        simp only [hci]
        rw [current, if_pos ht, e])
      rw [← this] at ht
      exact lt_irrefl _ ht
    · exact h rfl
  have hg := hp.mean_ge_point hT (a := a) (fun j v hv => by
    unfold refineScores at hv
    split_ifs at hv
    · simp [scoreOf] at hv
    · simpa [scoreOf] using hv.symm) (b := c i) (by
    unfold refineScores
    rw [if_neg hallow]
    simp [scoreOf])
  simp only [hm, hself, fun j => hdiag j (c i)]
  have h1 : ∑ j, p j * (C - 2 / (size : ℝ) * a j + k (x (c i)) (x (c i)) / (size : ℝ) ^ 2)
      = ∑ j, (p j * (C + k (x (c i)) (x (c i)) / (size : ℝ) ^ 2) - 2 / (size : ℝ) * (p j * a j)) := Finset.sum_congr rfl fun j _ => by ring
  rw [h1, Finset.sum_sub_distrib, ← Finset.sum_mul, hp.total, one_mul, ← Finset.mul_sum]
  have h2 := mul_le_mul_of_nonneg_left hg (show 0 ≤ 2 / (size : ℝ) by positivity)
  have h3 : 2 / (size : ℝ) * (a (c i) - T * Real.log n) = 2 / (size : ℝ) * a (c i) - 2 * T * Real.log n / size := by ring
  rw [h3] at h2
  linarith

end

/-! ### Many passes -/

/-- What `reduce_iterative` chooses from in its step `g`, counted over all passes: the first pass is herding from scratch, every later one replaces the members chosen
in the pass before. -/
noncomputable def Spec.iterScores {X : Type*} {n : ℕ} (k : X → X → ℝ) (x : Fin n → X) (r : Fin n → ℝ) (unique : Bool) (size g : ℕ) (s : ℕ → Fin n) : Fin n → Ext ℝ :=
  if g < size then herdingScores k x r unique g s
  else refineScores k x r unique size (fun t => s ((g / size - 1) * size + t)) (g % size) (fun t => s (g / size * size + t))

/-- The members of the coreset after `g` steps, from the end of the first pass on. -/
def Spec.coresetAt {n : ℕ} (size g : ℕ) (s : ℕ → Fin n) (t : Fin size) : Fin n :=
  current (fun t => s ((g / size - 1) * size + t)) (fun t => s (g / size * size + t)) (g % size) t

theorem div_lemma {size g : ℕ} (hg : size ≤ g) (hs : 0 < size) : g / size * size + g % size = g ∧ g % size < size ∧ 1 ≤ g / size ∧ (g / size - 1) * size + size = g / size * size := by
  have h1 := Nat.div_add_mod' g size
  have h2 := Nat.mod_lt g hs
  have h3 : 1 ≤ g / size := (Nat.one_le_div_iff hs).2 hg
  refine ⟨h1, h2, h3, ?_⟩
  obtain ⟨a, ha⟩ := Nat.exists_eq_add_of_le h3
  rw [ha, Nat.add_sub_cancel_left]
  ring

theorem iterScores_causal {X : Type*} {n : ℕ} [NeZero n] (k : X → X → ℝ) (x : Fin n → X) (r : Fin n → ℝ) (unique : Bool) {size : ℕ} (hs : 0 < size) :
    Path.Causal (iterScores k x r unique size) := by
  intro g s s' h
  unfold iterScores
  split_ifs with hg
  · exact herdingScores_causal k x r unique g s s' h
  · obtain ⟨h1, h2, h3, h4⟩ := div_lemma (not_lt.1 hg) hs
    exact refineScores_congr k x r unique h2 (fun t ht => h _ (by omega)) (fun t ht => h _ (by omega))

theorem iterScores_ok {X : Type*} {n : ℕ} (k : X → X → ℝ) (x : Fin n → X) (r : Fin n → ℝ) (unique : Bool) {size : ℕ} (hs : 0 < size) (hle : size ≤ n) (g : ℕ)
    (s : ℕ → Fin n) : (∀ j, iterScores k x r unique size g s j ≠ .nan) ∧ (∀ j, iterScores k x r unique size g s j ≠ .pinf) ∧
      ∃ j v, iterScores k x r unique size g s j = .fin v := by
  unfold iterScores
  split_ifs with hg
  · exact herdingScores_ok k x r unique (by omega) s
  · exact refineScores_ok k x r unique hle _ (Nat.mod_lt g hs) _

theorem coresetAt_causal {n : ℕ} [NeZero n] {size : ℕ} {g : ℕ} (hg : size ≤ g) {s s' : ℕ → Fin n} (h : ∀ t < g, s t = s' t) : coresetAt size g s = coresetAt size g s' := by
  funext t
  obtain ⟨h1, h2, h3, h4⟩ := div_lemma hg (t.pos)
  have := t.2
  unfold coresetAt current
  split_ifs with ht
  · exact h _ (by omega)
  · exact h _ (by omega)

theorem coresetAt_first {n : ℕ} {size : ℕ} (s : ℕ → Fin n) (t : Fin size) : coresetAt size size s t = s t := by
  unfold coresetAt current
  rw [Nat.mod_self, Nat.div_self t.pos, if_neg (by omega)]
  simp

theorem coresetAt_pass {n : ℕ} {size : ℕ} (N : ℕ) (s : ℕ → Fin n) (t : Fin size) : coresetAt size ((N + 1) * size) s t = s (N * size + t) := by
  unfold coresetAt current
  rw [Nat.mul_mod_left, Nat.mul_div_cancel _ t.pos, if_neg (by omega), Nat.add_sub_cancel]

theorem coresetAt_succ {n : ℕ} {size : ℕ} {g : ℕ} (hs : 0 < size) (hg : size ≤ g) (s : ℕ → Fin n) (p : Fin n) :
    coresetAt size (g + 1) (Function.update s g p) = Function.update (coresetAt size g s) ⟨g % size, Nat.mod_lt g hs⟩ p := by
  funext t
  obtain ⟨h1, h2, h3, h4⟩ := div_lemma hg hs
  have ht := t.2
  have hcase : ((g + 1) % size = g % size + 1 ∧ (g + 1) / size = g / size) ∨ ((g + 1) % size = 0 ∧ (g + 1) / size = g / size + 1 ∧ g % size + 1 = size) := by
    rcases Nat.lt_or_ge (g % size + 1) size with h | h
    · left
      have e : g + 1 = (g % size + 1) + g / size * size := by omega
      rw [e, Nat.add_mul_mod_self_right, Nat.mod_eq_of_lt h, Nat.add_mul_div_right _ _ hs, Nat.div_eq_of_lt h, zero_add]
      exact ⟨rfl, rfl⟩
    · right
      have h5 : g % size + 1 = size := by omega
      have e : g + 1 = (g / size + 1) * size := by rw [Nat.add_mul, one_mul]; omega
      rw [e, Nat.mul_mod_left, Nat.mul_div_cancel _ hs]
      exact ⟨rfl, rfl, h5⟩
  by_cases hti : t = ⟨g % size, Nat.mod_lt g hs⟩
  · have hti' : (t : ℕ) = g % size := congrArg Fin.val hti
    rw [hti, Function.update_self]
    unfold coresetAt current
    rcases hcase with ⟨e1, e2⟩ | ⟨e1, e2, e3⟩
    · rw [e1, e2]
      simp only [Nat.lt_succ_self, if_true, h1, Function.update_self]
    · rw [e1, e2]
      simp only [Nat.not_lt_zero, if_false, Nat.add_sub_cancel, h1, Function.update_self]
  · have hne : (t : ℕ) ≠ g % size := fun h => hti (Fin.ext h)
    rw [Function.update_of_ne hti]
    unfold coresetAt current
    rcases hcase with ⟨e1, e2⟩ | ⟨e1, e2, e3⟩
    · rw [e1, e2]
      by_cases hlt : (t : ℕ) < g % size
      · rw [if_pos (by omega), if_pos hlt]
        exact Function.update_of_ne (by omega) _ _
      · rw [if_neg (by omega), if_neg hlt]
        exact Function.update_of_ne (by omega) _ _
    · rw [e1, e2, if_neg (by omega), if_pos (by omega), Nat.add_sub_cancel]
      exact Function.update_of_ne (by omega) _ _

/-- Along a path of positive probability the members of the coreset are distinct, if rows are to be distinct. -/
theorem current_injective {X : Type*} {n : ℕ} (k : X → X → ℝ) (x : Fin n → X) (r : Fin n → ℝ) {size : ℕ} {c s : ℕ → Fin n} (hc : Function.Injective fun t : Fin size => c t)
    {i : ℕ} (h : ∀ i' < i, refineScores k x r true size c i' s (s i') ≠ .ninf) (hi : i ≤ size) : Function.Injective fun t : Fin size => current c s i t := by
  classical
  have hex : ∀ i' < i, ¬ ((∃ t < i', s t = s i') ∨ ∃ t, i' < t ∧ t < size ∧ c t = s i' ∧ c i' ≠ s i') := by
    intro i' hi' hcon
    refine h i' hi' ?_
    unfold refineScores
    rw [if_pos ⟨rfl, hcon⟩]
  have key : ∀ t t' : Fin size, t < t' → current c s i t ≠ current c s i t' := by
    intro t t' hlt e
    have hlt' : (t : ℕ) < t' := hlt
    unfold current at e
    by_cases h1 : (t' : ℕ) < i
    · rw [if_pos (by omega), if_pos h1] at e
      exact hex t' h1 (Or.inl ⟨t, hlt', e⟩)
    · rw [if_neg h1] at e
      by_cases h2 : (t : ℕ) < i
      · rw [if_pos h2] at e
        have h3 : c t = s t := by
          by_contra hne
          exact hex t h2 (Or.inr ⟨t', hlt', t'.2, e.symm, hne⟩)
        have := @hc t t' (by simp only; rw [h3, e])
        rw [this] at hlt
        exact lt_irrefl _ hlt
      · rw [if_neg h2] at e
        have := @hc t t' e
        rw [this] at hlt
        exact lt_irrefl _ hlt
  intro t t' e
  by_contra hne
  rcases lt_or_gt_of_ne hne with hlt | hlt
  · exact key t t' hlt e
  · exact key t' t hlt e.symm

theorem coresetAt_injective {X : Type*} {n : ℕ} (k : X → X → ℝ) (x : Fin n → X) (r : Fin n → ℝ) {size : ℕ} (hs : 0 < size) {s : ℕ → Fin n} {g : ℕ} (hg : size ≤ g)
    (h : ∀ g' < g, iterScores k x r true size g' s (s g') ≠ .ninf) : Function.Injective (coresetAt size g s) := by
  classical
  obtain ⟨h1, h2, h3, h4⟩ := div_lemma hg hs
  have hpass : ∀ a, a < g / size → Function.Injective fun t : Fin size => s (a * size + t) := by
    intro a
    induction a with
    | zero =>
      intro _ t t' e
      simp only [zero_mul, zero_add] at e
      have key : ∀ t t' : Fin size, t < t' → s t ≠ s t' := by
        intro t t' hlt e
        have ht' := t'.2
        refine h t' (by omega) ?_
        unfold iterScores herdingScores
        rw [if_pos ht', if_pos ⟨rfl, t, hlt, e⟩]
      by_contra hne
      rcases lt_or_gt_of_ne hne with hlt | hlt
      · exact key t t' hlt e
      · exact key t' t hlt e.symm
    | succ a ih =>
      intro ha
      have hle : (a + 1) * size + size ≤ g := by
        have : (a + 1 + 1) * size ≤ g / size * size := Nat.mul_le_mul_right _ (by omega)
        rw [Nat.add_mul (a + 1) 1, one_mul] at this
        omega
      have := current_injective k x r (ih (by omega)) (s := fun t => s ((a + 1) * size + t)) (i := size) (fun i' hi' => by
        have h5 := h ((a + 1) * size + i') (by omega)
        unfold iterScores at h5
        have e1 : ((a + 1) * size + i') / size = a + 1 := by
          rw [add_comm, Nat.add_mul_div_right _ _ hs, Nat.div_eq_of_lt hi', zero_add]
        have e2 : ((a + 1) * size + i') % size = i' := by
          rw [add_comm, Nat.add_mul_mod_self_right, Nat.mod_eq_of_lt hi']
        have hge : ¬ (a + 1) * size + i' < size := by
          rw [Nat.add_mul, one_mul]
          omega
        rw [if_neg hge, e1, e2, Nat.add_sub_cancel] at h5
        exact h5) le_rfl
      intro t t' e
      refine this ?_
      simp only [current, t.2, t'.2, if_true]
      exact e
  refine current_injective k x r (hpass (g / size - 1) (by omega)) (fun i' hi' => ?_) h2.le
  have h5 := h (g / size * size + i') (by omega)
  unfold iterScores at h5
  have hi'' : i' < size := hi'.trans h2
  have e1 : (g / size * size + i') / size = g / size := by
    rw [add_comm, Nat.add_mul_div_right _ _ hs, Nat.div_eq_of_lt hi'', zero_add]
  have e2 : (g / size * size + i') % size = i' := by
    rw [add_comm, Nat.add_mul_mod_self_right, Nat.mod_eq_of_lt hi'']
  have hge : ¬ g / size * size + i' < size := by
    have : 1 * size ≤ g / size * size := Nat.mul_le_mul_right _ h3
    omega
  rw [if_neg hge, e1, e2] at h5
  exact h5

section
variable {X : Type*} [Zero X] {n : ℕ} [NeZero n]

/-- `reduce_iterative` with random draws: every row is the one drawn from the scores given all earlier ones. -/
theorem C74_iterative_run (big : ℝ) (k : X → X → ℝ) (hk : ∀ a b, k a b = k b a) (draws : ℕ → Draw n ℝ) (unique : Bool)
    (bs : PyTree (Option ℤ)) (hbs : ValidBlock bs) (size : ℕ) (hsize : 0 < size) (hle : size ≤ n) (pre : Data n X ℝ)
    (hd : ∀ a, DrawContract (some (draws a)) pre.weights) (state : Option (List ℝ)) (hst : ∀ l, state = some l → gramianRowMean big k pre bs = .ok l)
    (ord : List (Fin (size + (size - size)))) (hord : ∀ t, t ∈ ord) (N : ℕ) :
    ∃ f : ℕ → Fin n, herdingReduceIterative big k (fun a => some (draws a)) unique bs size pre state ord (N + 1)
        = .ok (⟨fun t => (f (N * size + t) : ℤ), fun _ => 1⟩, List.ofFn fun j => avg pre.weights fun i => k (pre.data i) (pre.data j)) ∧
      ∀ g < (N + 1) * size, draws (g / size) (g % size) (iterScores k pre.data (fun j => avg pre.weights fun l => k (pre.data l) (pre.data j)) unique size g f) = (f g : ℤ) := by
  have hw := (hd 0 _ rfl).1
  have hW : 0 < ∑ j, pre.weights j := Finset.sum_pos (fun j _ => hw j) ⟨0, Finset.mem_univ _⟩
  have hrm := Greedy.rowMean_of_state big k hk pre hW.ne' bs hbs state hst
  have hgr := C05_gramian_row_mean big k hk (NeZero.pos n) pre hW.ne' bs hbs
  obtain ⟨-, hsucc⟩ := C14_iterative big k (fun a => some (draws a)) unique bs size pre state ord hle _ hrm
  induction N with
  | zero =>
    obtain ⟨f, h1, h2⟩ := C73_run big k hk (draws 0) unique bs hbs size hsize hle pre (hd 0) state hst ord hord
    refine ⟨extend f, ?_, fun g hg => ?_⟩
    · rw [C14_iterative_one big k _ unique bs hbs, h1]
      congr 3
      funext t
      simp [extend]
    · rw [zero_add, one_mul] at hg
      have := h2 ⟨g, hg⟩
      rw [Nat.div_eq_of_lt hg, Nat.mod_eq_of_lt hg, iterScores, if_pos hg]
      rw [show extend f g = f ⟨g, hg⟩ by simp [extend, hg]]
      exact this
  | succ N ih =>
    obtain ⟨f, h1, h2⟩ := ih
    obtain ⟨f', h3, h4⟩ := C74_refine_run big k hk (draws (N + 1)) unique bs hbs size hsize hle pre (hd (N + 1)) (fun t => f (N * size + t)) one_pos
      (some (List.ofFn fun j => avg pre.weights fun i => k (pre.data i) (pre.data j))) (by
        intro l hl
        cases hl
        exact hgr) ord hord
    have hold : ∀ t < (N + 1) * size, (fun g => if g < (N + 1) * size then f g else extend f' (g - (N + 1) * size)) t = f t := fun t ht => by simp only [if_pos ht]
    have hnew : ∀ t : ℕ, (fun g => if g < (N + 1) * size then f g else extend f' (g - (N + 1) * size)) ((N + 1) * size + t) = extend f' t := fun t => by
      simp only [if_neg (show ¬ (N + 1) * size + t < (N + 1) * size by omega), Nat.add_sub_cancel_left]
    refine ⟨fun g => if g < (N + 1) * size then f g else extend f' (g - (N + 1) * size), ?_, fun g hg => ?_⟩
    · rw [hsucc (N + 1), h1]
      simp only
      rw [h3]
      congr 3
      funext t
      have := hnew t
      simp only at this
      rw [this]
      simp [extend]
    · rcases Nat.lt_or_ge g ((N + 1) * size) with h | h
      · rw [iterScores_causal k pre.data _ unique hsize g _ f fun t ht => hold t (by omega), h2 g h, hold g h]
      · obtain ⟨t, rfl⟩ := Nat.exists_eq_add_of_le h
        have ht : t < size := by
          rw [Nat.add_mul (N + 1) 1, one_mul] at hg
          omega
        have e1 : ((N + 1) * size + t) / size = N + 1 := by
          rw [add_comm, Nat.add_mul_div_right _ _ hsize, Nat.div_eq_of_lt ht, zero_add]
        have e2 : ((N + 1) * size + t) % size = t := by
          rw [add_comm, Nat.add_mul_mod_self_right, Nat.mod_eq_of_lt ht]
        have hge : ¬ (N + 1) * size + t < size := by
          rw [Nat.add_mul, one_mul]
          omega
        rw [hnew, e1, e2, iterScores, if_neg hge, e1, e2, Nat.add_sub_cancel]
        have h5 := h4 ⟨t, ht⟩
        rw [show f' ⟨t, ht⟩ = extend f' t by simp [extend, ht]] at h5
        rw [← h5]
        congr 1
        refine refineScores_congr k pre.data _ unique ht (fun t' ht' => ?_) (fun t' ht' => hnew t')
        exact hold _ (by rw [Nat.add_mul, one_mul]; omega)

end

/-! ### On average over the keys -/

/-- `Path.mean_le` from a later time on. -/
theorem Path.mean_le_from {n : ℕ} [NeZero n] {Q : ℕ → (ℕ → Fin n) → Fin n → ℝ} (hQ : Path.Causal Q) {V : ℕ → (ℕ → Fin n) → ℝ} {i0 N : ℕ}
    (hV : ∀ i, i0 ≤ i → ∀ s s', (∀ t < i, s t = s' t) → V i s = V i s')
    (h0 : ∀ i < N, ∀ s p, 0 ≤ Q i s p) (h1 : ∀ i < N, ∀ s, ∑ p, Q i s p = 1) (c : ℕ → ℝ)
    (hstep : ∀ i, i0 ≤ i → i < N → ∀ s, Path.prob Q s i ≠ 0 → ∑ p, Q i s p * V (i + 1) (Function.update s i p) ≤ V i s + c i) {i : ℕ} (h0i : i0 ≤ i) (hi : i ≤ N) :
    Path.mean Q (V i) i ≤ Path.mean Q (V i0) i0 + ∑ t ∈ Finset.Ico i0 i, c t := by
  induction i, h0i using Nat.le_induction with
  | base => simp
  | succ i h0i ih =>
    have hsucc := Path.mean_succ hQ (V := fun j => if i0 ≤ j then V j else fun _ => 0) (fun j s s' h => by
      by_cases hj : i0 ≤ j
      · simp only [if_pos hj]; exact hV j hj s s' h
      · simp only [if_neg hj]) i
    simp only [if_pos (show i0 ≤ i + 1 by omega)] at hsucc
    rw [hsucc, Finset.sum_Ico_succ_top h0i]
    have h2 : ∑ s : Fin i → Fin n, Path.prob Q (extend s) i * ∑ p, Q i (extend s) p * V (i + 1) (Function.update (extend s) i p)
        ≤ ∑ s : Fin i → Fin n, Path.prob Q (extend s) i * (V i (extend s) + c i) := by
      refine Finset.sum_le_sum fun s _ => ?_
      rcases eq_or_ne (Path.prob Q (extend s) i) 0 with h | h
      · rw [h, zero_mul, zero_mul]
      · exact mul_le_mul_of_nonneg_left (hstep i h0i (by omega) _ h) (Path.prob_nonneg h0 _ (by omega))
    refine h2.trans ?_
    simp only [mul_add, Finset.sum_add_distrib, ← Finset.sum_mul, Path.prob_total hQ h1 (show i ≤ N by omega), one_mul]
    have := ih (by omega)
    unfold Path.mean at this ⊢
    linarith

theorem sum_passes (size : ℕ) (hs : 0 < size) (φ : ℕ → ℝ) (N : ℕ) :
    ∑ m ∈ Finset.Ico size ((N + 1) * size), φ (m / size) = ∑ a ∈ Finset.Ico 1 (N + 1), size * φ a := by
  induction N with
  | zero => simp
  | succ N ih =>
    have h1 : size ≤ (N + 1) * size := Nat.le_mul_of_pos_left _ (Nat.succ_pos _)
    have h2 : (N + 1) * size ≤ (N + 1 + 1) * size := Nat.mul_le_mul_right _ (by omega)
    rw [← Finset.sum_Ico_consecutive _ h1 h2, ih, Finset.sum_Ico_succ_top (show 1 ≤ N + 1 by omega)]
    congr 1
    have h3 : ∀ m ∈ Finset.Ico ((N + 1) * size) ((N + 1 + 1) * size), φ (m / size) = φ (N + 1) := by
      intro m hm
      obtain ⟨h4, h5⟩ := Finset.mem_Ico.1 hm
      rw [Nat.div_eq_of_lt_le h4 h5]
    rw [Finset.sum_congr rfl h3, Finset.sum_const, Nat.card_Ico, nsmul_eq_mul]
    congr 2
    rw [Nat.add_mul (N + 1) 1, one_mul]
    omega

section
variable {X U : Type} [Zero X] [MeasurableSpace U] {μ : Measure U} [IsProbabilityMeasure μ] {n : ℕ} [NeZero n] {D : U → (Fin n → Ext ℝ) → ℤ}

/-- Keys that are independent of each other: the key is the list of the numbers folded in, and step `t` of pass `a` uses the variable of number `a * size + t`. -/
noncomputable def Spec.streamKeys (D : U → (Fin n → Ext ℝ) → ℤ) (size : ℕ) {M : ℕ} (ω : Fin M → U) : KeyOps (List ℕ) n where
  foldIn key i := key ++ [i]
  choice key p := match key with
    | [a, t] => drawOf D ω (a * size + t) p
    | _ => 0

theorem streamKeys_draw (size : ℕ) {M : ℕ} (ω : Fin M → U) (T0 : ℝ) {L : ℕ} [NeZero L] (T : Fin L → ℝ) (a : ℕ) :
    solverDraw (streamKeys D size ω) (iterationSettings (streamKeys D size ω) ⟨true, T0, []⟩ (some T) a)
      = some (softmaxDraw (fun i p => drawOf D ω (a * size + i) p) (T (gatherIdx L a))) := rfl

/-- The law of the rows of `reduce_iterative`. -/
theorem C74_law (hD : PivotLaw μ D) (big : ℝ) (k : X → X → ℝ) (hk : ∀ a b, k a b = k b a) (T0 : ℝ) {L : ℕ} [NeZero L] (T : Fin L → ℝ) (hT : ∀ l, 0 < T l) (unique : Bool)
    (bs : PyTree (Option ℤ)) (hbs : ValidBlock bs) (size : ℕ) (hsize : 0 < size) (hle : size ≤ n) (pre : Data n X ℝ)
    (hw : ∀ j, 0 < pre.weights j) (state : Option (List ℝ)) (hst : ∀ l, state = some l → gramianRowMean big k pre bs = .ok l)
    (ord : List (Fin (size + (size - size)))) (hord : ∀ t, t ∈ ord) (N : ℕ) :
    ∃ f : (Fin ((N + 1) * size) → U) → Fin ((N + 1) * size) → Fin n,
      (∀ ω, ∃ st, reduceIterativeKeyed (streamKeys D size ω) ⟨true, T0, []⟩ (some T) big k unique bs size pre state ord (N + 1)
        = .ok (⟨fun t => (extend (f ω) (N * size + t) : ℤ), fun _ => 1⟩, st)) ∧
      (unique = true → ∀ ω, Function.Injective fun t : Fin size => extend (f ω) (N * size + t)) ∧
      ∃ P : ℕ → (ℕ → Fin n) → Fin n → ℝ, Path.Causal P ∧
        (∀ g s, IsGibbs (fun j => scoreOf (iterScores k pre.data (fun j => avg pre.weights fun l => k (pre.data l) (pre.data j)) unique size g s j))
          (T (gatherIdx L ((g / size : ℕ) : ℤ))) (P g s)) ∧
        ∀ G : (ℕ → Fin n) → ℝ, Integrable (fun ω => G (extend (f ω))) (Measure.pi fun _ => μ) ∧
          ∫ ω, G (extend (f ω)) ∂(Measure.pi fun _ => μ) = Path.mean P G ((N + 1) * size) := by
  classical
  set r : Fin n → ℝ := fun j => avg pre.weights fun l => k (pre.data l) (pre.data j) with hr
  have hrun := fun ω : Fin ((N + 1) * size) → U => C74_iterative_run big k hk (fun a => softmaxDraw (fun i p => drawOf D ω (a * size + i) p) (T (gatherIdx L a)))
    unique bs hbs size hsize hle pre (fun a => C47_draw_contract _ (fun i p => hD.singleChoice ω (a * size + i) p) (hT _) _ hw) state hst ord hord N
  choose f h1 h2 using hrun
  have hext : ∀ ω, ∀ g < (N + 1) * size, extend (fun i : Fin ((N + 1) * size) => f ω i) g = f ω g := fun ω g hg => by simp [extend, hg]
  have hlast : ∀ ω (t : Fin size), extend (fun i : Fin ((N + 1) * size) => f ω i) (N * size + t) = f ω (N * size + t) := fun ω t =>
    hext ω _ (by rw [Nat.add_mul, one_mul]; omega)
  have hcausal := iterScores_causal k pre.data r unique hsize
  have hstep : ∀ ω (i : Fin ((N + 1) * size)),
      D (ω i) (herdingProbs (T (gatherIdx L (((i : ℕ) / size : ℕ) : ℤ))) (iterScores k pre.data r unique size i (extend fun i : Fin ((N + 1) * size) => f ω i))) = (f ω i : ℤ) := by
    intro ω i
    rw [← h2 ω i i.2, hcausal i _ (f ω) fun t ht => hext ω t (ht.trans i.2)]
    simp only [softmaxDraw, drawOf, Nat.div_add_mod', i.2, dif_pos, Fin.eta]
    rfl
  have hgibbs : ∀ g s, IsGibbs (fun j => scoreOf (iterScores k pre.data r unique size g s j)) (T (gatherIdx L ((g / size : ℕ) : ℤ)))
      (fun j => μ.real {u | D u (herdingProbs (T (gatherIdx L ((g / size : ℕ) : ℤ))) (iterScores k pre.data r unique size g s)) = (j : ℤ)}) := by
    intro g s
    obtain ⟨g1, g2, g3⟩ := iterScores_ok k pre.data r unique hsize hle g s
    obtain ⟨p, hp, hg⟩ := C47_gibbs (hT (gatherIdx L ((g / size : ℕ) : ℤ))) _ g1 g2 g3
    have : (fun j : Fin n => μ.real {u | D u (herdingProbs (T (gatherIdx L ((g / size : ℕ) : ℤ))) (iterScores k pre.data r unique size g s)) = (j : ℤ)}) = p := by
      funext j
      rw [hp, hD.law p hg.nonneg (by rw [hg.total]; exact one_pos) j, hg.total, div_one]
    rw [this]
    exact hg
  refine ⟨fun ω i => f ω i, fun ω => ⟨List.ofFn r, ?_⟩, fun hu ω => ?_, _, ?_, hgibbs, fun G => ?_⟩
  · simp only [hlast]
    exact h1 ω
  · subst hu
    have hinj := coresetAt_injective k pre.data r hsize (s := f ω) (g := (N + 1) * size) (Nat.le_mul_of_pos_left _ (Nat.succ_pos _)) (fun g hg hbad => by
      obtain ⟨g1, g2, g3⟩ := iterScores_ok k pre.data r true hsize hle g (f ω)
      obtain ⟨p, hp, hgp⟩ := C47_gibbs (hT (gatherIdx L ((g / size : ℕ) : ℤ))) _ g1 g2 g3
      obtain ⟨j, hj, hpos⟩ := hD.singleChoice ω g p hgp.nonneg hgp.total
      have h3 := h2 ω g hg
      simp only [softmaxDraw, Nat.div_add_mod'] at h3
      rw [show herdingProbs (T (gatherIdx L ((g / size : ℕ) : ℤ))) (iterScores k pre.data r true size g (f ω)) = _ from hp, hj] at h3
      have h4 : j = f ω g := Fin.ext (by exact_mod_cast h3)
      rw [h4] at hpos
      refine hpos.ne' ((hgp.excluded (f ω g)).2 ?_)
      rw [hbad]
      rfl)
    intro t t' e
    refine hinj ?_
    rw [coresetAt_pass, coresetAt_pass]
    simp only [hlast] at e
    exact e
  · intro g s s' h
    simp only [hcausal g s s' h]
  · exact Path.integral hD (F := fun g s => herdingProbs (T (gatherIdx L ((g / size : ℕ) : ℤ))) (iterScores k pre.data r unique size g s))
      (fun i s s' h => by simp only [hcausal i s s' h]) hstep G

/-- Over the passes after the first. -/
theorem Rate.mean_passes (k : X → X → ℝ) (hk : ∀ a b, k a b = k b a) (x : Fin n → X) (w : Fin n → ℝ) (hdiag : ∀ i j, k (x i) (x i) = k (x j) (x j)) (unique : Bool)
    {T : ℕ → ℝ} (hT : ∀ a, 0 < T a) {size : ℕ} (hsize : 0 < size) {P : ℕ → (ℕ → Fin n) → Fin n → ℝ} (hP : Path.Causal P)
    (hG : ∀ g s, IsGibbs (fun j => scoreOf (iterScores k x (fun j => avg w fun l => k (x l) (x j)) unique size g s j)) (T (g / size)) (P g s)) (N : ℕ) :
    Path.mean P (fun s => mmdSq k x w (fun t : Fin size => x (coresetAt size ((N + 1) * size) s t)) (fun _ => 1)) ((N + 1) * size)
      ≤ Path.mean P (fun s => mmdSq k x w (fun t : Fin size => x (s t)) (fun _ => 1)) size + 2 * Real.log n * ∑ a ∈ Finset.Ico 1 (N + 1), T a := by
  have hs : (0 : ℝ) < size := by positivity
  have key := Path.mean_le_from hP (V := fun g s => mmdSq k x w (fun t : Fin size => x (coresetAt size g s t)) (fun _ => 1)) (i0 := size) (N := (N + 1) * size)
    (fun g hg s s' h => by simp only [coresetAt_causal hg h]) (fun g _ s p => (hG g s).nonneg p) (fun g _ s => (hG g s).total)
    (fun g => 2 * T (g / size) * Real.log n / size) (fun g hg _ s hprob => by
      have hstep := refine_mean_step k hk x w hdiag unique (hT (g / size)) (fun t => s ((g / size - 1) * size + t)) (fun t => s (g / size * size + t))
        ⟨g % size, Nat.mod_lt g hsize⟩ (fun hu => by
          subst hu
          exact coresetAt_injective k x (fun j => avg w fun l => k (x l) (x j)) hsize hg fun g' hg' hbad => by
            have h3 : P g' s (s g') ≠ 0 := Finset.prod_ne_zero_iff.1 hprob g' (Finset.mem_range.2 hg')
            refine h3 (((hG g' s).excluded (s g')).2 ?_)
            rw [hbad]
            rfl) (p := P g s) (by
          have := hG g s
          unfold iterScores at this
          rw [if_neg (not_lt.2 hg)] at this
          exact this)
      refine le_trans (le_of_eq (Finset.sum_congr rfl fun p _ => ?_)) hstep
      congr 2
      funext t
      rw [coresetAt_succ hsize hg]
      exact Function.apply_update (fun _ => x) (coresetAt size g s) _ p t) (Nat.le_mul_of_pos_left _ (Nat.succ_pos _)) le_rfl
  simp only [coresetAt_first] at key
  refine key.trans (le_of_eq ?_)
  rw [sum_passes size hsize (fun a => 2 * T a * Real.log n / size) N, Finset.mul_sum]
  congr 1
  exact Finset.sum_congr rfl fun a _ => by field_simp

theorem Rate.mean_first (k : X → X → ℝ) (x : Fin n → X) (w : Fin n → ℝ) {size : ℕ} (hsize : 0 < size) (P : ℕ → (ℕ → Fin n) → Fin n → ℝ) :
    Path.mean P (fun s => mmdSq k x w (fun t : Fin size => x (s t)) (fun _ => 1)) size = Path.mean P (fun s => Rate.potential k x w s size) size / (size : ℝ) ^ 2 := by
  have hs : (0 : ℝ) < size := by positivity
  unfold Path.mean
  rw [Finset.sum_div]
  refine Finset.sum_congr rfl fun s _ => ?_
  beta_reduce
  rw [Rate.potential_eq_mmdSq k x w hsize (fun t : Fin size => extend s t) _ (fun t => rfl)]
  field_simp

/-- `reduce_iterative` with distinct rows (the default) and a schedule of temperatures, on equally weighted data, for a positive semi-definite kernel with constant diagonal: over
independent keys, the mean of the squared MMD after any number of passes is at most that of the bound for herding, plus `2 log n` times the sum of the temperatures of the passes
after the first. -/
theorem C74_expected_unique (hD : PivotLaw μ D) (big : ℝ) (k : X → X → ℝ) (hk : IsPSD k) (T0 : ℝ) {L : ℕ} [NeZero L] (T : Fin L → ℝ) (hT : ∀ l, 0 < T l)
    (bs : PyTree (Option ℤ)) (hbs : ValidBlock bs) (size : ℕ) (hsize : 0 < size) (hle : size ≤ n) (pre : Data n X ℝ) {u : ℝ} (hu : 0 < u)
    (hw : ∀ j, pre.weights j = u) (state : Option (List ℝ)) (hst : ∀ l, state = some l → gramianRowMean big k pre bs = .ok l)
    (ord : List (Fin (size + (size - size)))) (hord : ∀ t, t ∈ ord) (R : ℝ) (hR : ∀ j, k (pre.data j) (pre.data j) = R) (N : ℕ) :
    ∃ f : (Fin ((N + 1) * size) → U) → Fin size → Fin n,
      (∀ ω, ∃ st, reduceIterativeKeyed (streamKeys D size ω) ⟨true, T0, []⟩ (some T) big k true bs size pre state ord (N + 1)
        = .ok (⟨fun t => (f ω t : ℤ), fun _ => 1⟩, st)) ∧
      (∀ ω, Function.Injective (f ω)) ∧
      Integrable (fun ω => mmdSq k pre.data pre.weights (fun t => pre.data (f ω t)) (fun _ => 1)) (Measure.pi fun _ => μ) ∧
      ∫ ω, mmdSq k pre.data pre.weights (fun t => pre.data (f ω t)) (fun _ => 1) ∂(Measure.pi fun _ => μ)
        ≤ (R - (avg pre.weights fun i => avg pre.weights fun j => k (pre.data i) (pre.data j)) / 2) / size
          + 2 * Real.log n * ∑ a ∈ Finset.Ico 1 (N + 1), T (gatherIdx L (a : ℤ)) := by
  obtain ⟨f, h1, h2, P, hP, hG, h3⟩ := C74_law hD big k hk.1 T0 T hT true bs hbs size hsize hle pre (fun j => by rw [hw]; exact hu) state hst ord hord N
  set w := pre.weights
  set x := pre.data
  have hs : (0 : ℝ) < size := by positivity
  refine ⟨fun ω t => extend (f ω) (N * size + t), h1, h2 rfl, (h3 fun s => mmdSq k x w (fun t : Fin size => x (s (N * size + t))) (fun _ => 1)).1, ?_⟩
  refine (h3 fun s => mmdSq k x w (fun t : Fin size => x (s (N * size + t))) (fun _ => 1)).2.trans_le ?_
  have hpass := Rate.mean_passes k hk.1 x w (fun i j => by rw [hR, hR]) true (T := fun a => T (gatherIdx L (a : ℤ))) (fun a => hT _) hsize hP hG N
  simp only [coresetAt_pass] at hpass
  refine hpass.trans ?_
  have hfirst := Rate.mean_potential_le_unique k hk (hT (gatherIdx L ((0 : ℕ) : ℤ))) x hu hw (fun j => (hR j).le) hle hP fun i hi s => by
    have := hG i s
    rw [Nat.div_eq_of_lt hi] at this
    unfold iterScores at this
    rw [if_pos hi] at this
    exact this
  rw [Rate.mean_first k x w hsize P]
  have e : (R - (avg w fun i => avg w fun j => k (x i) (x j)) / 2) / size = (size * (R - Rate.meanSq k x w / 2)) / (size : ℝ) ^ 2 := by
    unfold Rate.meanSq
    field_simp
  rw [e]
  have := div_le_div_of_nonneg_right hfirst (show (0 : ℝ) ≤ (size : ℝ) ^ 2 by positivity)
  linarith

/-- The same when rows may repeat, for any positive weights; the first temperature then counts in proportion to the divergence of the weights from equal ones. -/
theorem C74_expected (hD : PivotLaw μ D) (big : ℝ) (k : X → X → ℝ) (hk : ∀ a b, k a b = k b a) (T0 : ℝ) {L : ℕ} [NeZero L] (T : Fin L → ℝ) (hT : ∀ l, 0 < T l)
    (bs : PyTree (Option ℤ)) (hbs : ValidBlock bs) (size : ℕ) (hsize : 0 < size) (hle : size ≤ n) (pre : Data n X ℝ)
    (hw : ∀ j, 0 < pre.weights j) (state : Option (List ℝ)) (hst : ∀ l, state = some l → gramianRowMean big k pre bs = .ok l)
    (ord : List (Fin (size + (size - size)))) (hord : ∀ t, t ∈ ord) (R : ℝ) (hR : ∀ j, k (pre.data j) (pre.data j) = R) (N : ℕ) :
    ∃ f : (Fin ((N + 1) * size) → U) → Fin size → Fin n,
      (∀ ω, ∃ st, reduceIterativeKeyed (streamKeys D size ω) ⟨true, T0, []⟩ (some T) big k false bs size pre state ord (N + 1)
        = .ok (⟨fun t => (f ω t : ℤ), fun _ => 1⟩, st)) ∧
      Integrable (fun ω => mmdSq k pre.data pre.weights (fun t => pre.data (f ω t)) (fun _ => 1)) (Measure.pi fun _ => μ) ∧
      ∫ ω, mmdSq k pre.data pre.weights (fun t => pre.data (f ω t)) (fun _ => 1) ∂(Measure.pi fun _ => μ)
        ≤ (R - avg pre.weights fun i => avg pre.weights fun j => k (pre.data i) (pre.data j)) / size + T (gatherIdx L 0) * skew pre.weights * ((size + 1) / size)
          + 2 * Real.log n * ∑ a ∈ Finset.Ico 1 (N + 1), T (gatherIdx L (a : ℤ)) := by
  obtain ⟨f, h1, -, P, hP, hG, h3⟩ := C74_law hD big k hk T0 T hT false bs hbs size hsize hle pre hw state hst ord hord N
  set w := pre.weights
  set x := pre.data
  have hs : (0 : ℝ) < size := by positivity
  refine ⟨fun ω t => extend (f ω) (N * size + t), h1, (h3 fun s => mmdSq k x w (fun t : Fin size => x (s (N * size + t))) (fun _ => 1)).1, ?_⟩
  refine (h3 fun s => mmdSq k x w (fun t : Fin size => x (s (N * size + t))) (fun _ => 1)).2.trans_le ?_
  have hpass := Rate.mean_passes k hk x w (fun i j => by rw [hR, hR]) false (T := fun a => T (gatherIdx L (a : ℤ))) (fun a => hT _) hsize hP hG N
  simp only [coresetAt_pass] at hpass
  refine hpass.trans ?_
  have hfirst := Rate.mean_potential_le k hk (hT (gatherIdx L ((0 : ℕ) : ℤ))) x hw (fun j => (hR j).le) (size := size) hP fun i hi s => by
    have := hG i s
    rw [Nat.div_eq_of_lt hi] at this
    unfold iterScores at this
    rw [if_pos hi] at this
    exact this
  rw [Rate.mean_first k x w hsize P]
  have e : (R - avg w fun i => avg w fun j => k (x i) (x j)) / size + T (gatherIdx L 0) * skew w * ((size + 1) / size)
      = (size * (R - Rate.meanSq k x w) + T (gatherIdx L ((0 : ℕ) : ℤ)) * skew w * (size * (size + 1))) / (size : ℝ) ^ 2 := by
    unfold Rate.meanSq
    push_cast
    field_simp
  rw [e]
  have := div_le_div_of_nonneg_right hfirst (show (0 : ℝ) ≤ (size : ℝ) ^ 2 by positivity)
  linarith

/-- One call of `refine` on a coreset with equal weights, at temperature `T`, for a kernel with constant diagonal: over independent keys the squared MMD grows on average by at
most `2 T log n`; the deterministic solver never lets it grow (`C41_herding_refine_descent`). -/
theorem C74_refine_expected (hD : PivotLaw μ D) (big : ℝ) (k : X → X → ℝ) (hk : ∀ a b, k a b = k b a) {T : ℝ} (hT : 0 < T) (unique : Bool)
    (bs : PyTree (Option ℤ)) (hbs : ValidBlock bs) (size : ℕ) (hsize : 0 < size) (hle : size ≤ n) (pre : Data n X ℝ)
    (hw : ∀ j, 0 < pre.weights j) (hdiag : ∀ i j, k (pre.data i) (pre.data i) = k (pre.data j) (pre.data j)) (c : Fin size → Fin n) {u : ℝ} (hu : 0 < u)
    (hinj : unique = true → Function.Injective c) (state : Option (List ℝ)) (hst : ∀ l, state = some l → gramianRowMean big k pre bs = .ok l)
    (ord : List (Fin (size + (size - size)))) (hord : ∀ t, t ∈ ord) :
    ∃ f : (Fin size → U) → Fin size → Fin n,
      (∀ ω, ∃ st, herdingRefine big k (some (softmaxDraw (drawOf D ω) T)) unique bs size pre ⟨fun t => (c t : ℤ), fun _ => u⟩ state ord
        = .ok (⟨fun t => (f ω t : ℤ), fun _ => 1⟩, st)) ∧
      Integrable (fun ω => mmdSq k pre.data pre.weights (fun t => pre.data (f ω t)) (fun _ => 1)) (Measure.pi fun _ => μ) ∧
      ∫ ω, mmdSq k pre.data pre.weights (fun t => pre.data (f ω t)) (fun _ => 1) ∂(Measure.pi fun _ => μ)
        ≤ mmdSq k pre.data pre.weights (fun t => pre.data (c t)) (fun _ => 1) + 2 * T * Real.log n := by
  classical
  set r : Fin n → ℝ := fun j => avg pre.weights fun l => k (pre.data l) (pre.data j) with hr
  have hrun := fun ω : Fin size → U => C74_refine_run big k hk (softmaxDraw (drawOf D ω) T) unique bs hbs size hsize hle pre
    (C47_draw_contract _ (hD.singleChoice ω) hT _ hw) (extend c) hu state hst ord hord
  choose f h1 h2 using hrun
  have hc : ∀ t : Fin size, extend c t = c t := fun t => by simp [extend]
  simp only [hc] at h1
  have hf : ∀ ω, ∀ t : Fin size, extend (f ω) t = f ω t := fun ω t => by simp [extend]
  set F : ℕ → (ℕ → Fin n) → Fin n → Ext ℝ := fun i s => if i < size then herdingProbs T (refineScores k pre.data r unique size (extend c) i s) else fun _ => .nan with hF
  have hcausal : Path.Causal F := by
    intro i s s' h
    simp only [hF]
    split_ifs with hi
    · rw [refineScores_congr k pre.data r unique hi (fun _ _ => rfl) h]
    · rfl
  have hstep : ∀ ω (i : Fin size), D (ω i) (F i (extend (f ω))) = (f ω i : ℤ) := by
    intro ω i
    rw [← h2 ω i]
    simp only [hF, if_pos i.2, softmaxDraw, drawOf, dif_pos i.2]
    rfl
  have hgibbs : ∀ i < size, ∀ s, IsGibbs (fun j => scoreOf (refineScores k pre.data r unique size (extend c) i s j)) T (fun j => μ.real {v | D v (F i s) = (j : ℤ)}) := by
    intro i hi s
    obtain ⟨g1, g2, g3⟩ := refineScores_ok k pre.data r unique hle (extend c) hi s
    obtain ⟨p, hp, hg⟩ := C47_gibbs hT _ g1 g2 g3
    have : (fun j : Fin n => μ.real {v | D v (F i s) = (j : ℤ)}) = p := by
      funext j
      simp only [hF, if_pos hi]
      rw [hp, hD.law p hg.nonneg (by rw [hg.total]; exact one_pos) j, hg.total, div_one]
    rw [this]
    exact hg
  have hint := Path.integral hD hcausal hstep fun s => mmdSq k pre.data pre.weights (fun t : Fin size => pre.data (s t)) (fun _ => 1)
  simp only [hf] at hint
  refine ⟨f, fun ω => ⟨_, h1 ω⟩, hint.1, hint.2.trans_le ?_⟩
  have hs : (0 : ℝ) < size := by positivity
  have hmean := Path.mean_le (V := fun i s => mmdSq k pre.data pre.weights (fun t : Fin size => pre.data (current (extend c) s i t)) (fun _ => 1))
    (Q := fun i s j => μ.real {v | D v (F i s) = (j : ℤ)}) (fun i s s' h => by simp only [hcausal i s s' h]) (fun i s s' h => by
      beta_reduce
      congr 1
      funext t
      unfold current
      split_ifs with ht
      · rw [h t ht]
      · rfl) (N := size) (fun i hi s p => (hgibbs i hi s).nonneg p) (fun i hi s => (hgibbs i hi s).total) (fun _ => 2 * T * Real.log n / size) (fun i hi s hprob => by
      have hone := refine_mean_step k hk pre.data pre.weights hdiag unique hT (extend c) s ⟨i, hi⟩ (fun hu' => by
        subst hu'
        refine current_injective k pre.data r (fun a b e => hinj rfl (by simpa only [hc] using e)) (fun i' hi' hbad => ?_) hi.le
        have h3 : μ.real {v | D v (F i' s) = ((s i' : Fin n) : ℤ)} ≠ 0 := Finset.prod_ne_zero_iff.1 hprob i' (Finset.mem_range.2 hi')
        refine h3 (((hgibbs i' (hi'.trans hi) s).excluded (s i')).2 ?_)
        rw [hbad]
        rfl) (hgibbs i hi s)
      refine le_trans (le_of_eq (Finset.sum_congr rfl fun p _ => ?_)) hone
      congr 2
      funext t
      by_cases ht : t = ⟨i, hi⟩
      · subst ht
        simp [current]
      · have hne : (t : ℕ) ≠ i := fun h => ht (Fin.ext h)
        rw [Function.update_of_ne ht]
        unfold current
        by_cases hlt : (t : ℕ) < i
        · rw [if_pos (by omega), if_pos hlt, Function.update_of_ne hne]
        · rw [if_neg (by omega), if_neg hlt]) le_rfl
  rw [Finset.sum_const, Finset.card_range, nsmul_eq_mul, mul_div_cancel₀ _ hs.ne'] at hmean
  have e1 : ∀ (s : ℕ → Fin n) (t : Fin size), current (extend c) s size t = s t := fun s t => by rw [current, if_pos t.2]
  have e2 : ∀ (s : ℕ → Fin n) (t : Fin size), current (extend c) s 0 t = c t := fun s t => by rw [current, if_neg (by omega), hc]
  simp only [e1, e2] at hmean
  exact hmean

end

/-! ### Flags and schedules -/

section
variable {Key X : Type*} [Zero X] {n : ℕ} [NeZero n]

theorem herdingReduceIterative_congr (big : ℝ) (k : X → X → ℝ) {prob prob' : ℕ → Option (Draw n ℝ)} (unique : Bool) (bs : PyTree (Option ℤ)) (size : ℕ)
    (pre : Data n X ℝ) (state : Option (List ℝ)) (ord : List (Fin (size + (size - size)))) (iters : ℕ) (h : ∀ i < iters, prob i = prob' i) :
    herdingReduceIterative big k prob unique bs size pre state ord iters = herdingReduceIterative big k prob' unique bs size pre state ord iters := by
  have h' : ∀ i : Fin iters, prob i = prob' i := fun i => h i i.2
  unfold herdingReduceIterative
  simp only [h']

/-- Without `probabilistic` the schedule, the temperature and the key are ignored: the coreset is that of standard herding, refined. -/
theorem C74_not_probabilistic (o : KeyOps Key n) (temperature : ℝ) (key : Key) {L : ℕ} [NeZero L] (schedule : Option (Fin L → ℝ)) (big : ℝ) (k : X → X → ℝ)
    (unique : Bool) (bs : PyTree (Option ℤ)) (size : ℕ) (pre : Data n X ℝ) (state : Option (List ℝ)) (ord : List (Fin (size + (size - size)))) (iters : ℕ) :
    reduceIterativeKeyed o ⟨false, temperature, key⟩ schedule big k unique bs size pre state ord iters
      = herdingReduceIterative big k (fun _ => none) unique bs size pre state ord iters :=
  herdingReduceIterative_congr big k unique bs size pre state ord iters fun _ _ => rfl

/-- A schedule that is too short is continued with its last temperature and one that is too long is cut: if `t'` is a schedule of the right length with
`t'[i] = t[min(i, len(t) - 1)]`, the results are the same. The solver's own temperature is not used. -/
theorem C74_schedule_length (o : KeyOps Key n) (probabilistic : Bool) (temperature temperature' : ℝ) (key : Key) {L iters : ℕ} [NeZero L] [NeZero iters]
    (t : Fin L → ℝ) (t' : Fin iters → ℝ) (h : ∀ i : Fin iters, t' i = t ⟨min i (L - 1), by have := NeZero.pos L; omega⟩) (big : ℝ) (k : X → X → ℝ)
    (unique : Bool) (bs : PyTree (Option ℤ)) (size : ℕ) (pre : Data n X ℝ) (state : Option (List ℝ)) (ord : List (Fin (size + (size - size)))) :
    reduceIterativeKeyed o ⟨probabilistic, temperature, key⟩ (some t) big k unique bs size pre state ord iters
      = reduceIterativeKeyed o ⟨probabilistic, temperature', key⟩ (some t') big k unique bs size pre state ord iters := by
  have hL := NeZero.pos L
  refine herdingReduceIterative_congr big k unique bs size pre state ord iters fun i hi => ?_
  have e1 : gatherIdx iters (i : ℤ) = ⟨i, hi⟩ := gatherIdx_coe (⟨i, hi⟩ : Fin iters)
  have e2 : gatherIdx L (i : ℤ) = ⟨min i (L - 1), by omega⟩ := by
    apply Fin.ext
    simp only [gatherIdx]
    omega
  unfold solverDraw iterationSettings
  simp only [e1, e2, h]

/-- Without a schedule every iteration uses the temperature of the solver: the result is that of a schedule that repeats it. -/
theorem C74_no_schedule (o : KeyOps Key n) (probabilistic : Bool) (temperature temperature' : ℝ) (key : Key) {L L' : ℕ} [NeZero L] [NeZero L'] (big : ℝ)
    (k : X → X → ℝ) (unique : Bool) (bs : PyTree (Option ℤ)) (size : ℕ) (pre : Data n X ℝ) (state : Option (List ℝ)) (ord : List (Fin (size + (size - size))))
    (iters : ℕ) :
    reduceIterativeKeyed (L := L) o ⟨probabilistic, temperature, key⟩ none big k unique bs size pre state ord iters
      = reduceIterativeKeyed (L := L') o ⟨probabilistic, temperature', key⟩ (some fun _ => temperature) big k unique bs size pre state ord iters :=
  herdingReduceIterative_congr big k unique bs size pre state ord iters fun _ _ => rfl

/-- The documentation of `t_schedule` says "If None, standard Kernel Herding is used". With `probabilistic=True` this is not so: the rows are drawn at the solver's own
temperature, and a key exists with which one iteration chooses another row than standard herding. -/
theorem C74_no_schedule_not_standard : ∃ (o : KeyOps Unit 2) (pre : Data 2 ℝ ℝ), (∀ key, SingleChoiceContract fun i p => o.choice (o.foldIn key i) p) ∧
    ∃ c c' st st', reduceIterativeKeyed (L := 1) o ⟨true, 1, ()⟩ none 1000 (fun a b : ℝ => a * b) true (.leaf none) 1 pre none [0] 1 = .ok (c, st) ∧
      herdingReduceIterative 1000 (fun a b : ℝ => a * b) (fun _ => none) true (.leaf none) 1 pre none [0] 1 = .ok (c', st') ∧
      c.data 0 = 0 ∧ c'.data 0 = 1 := by
  classical
  set o : KeyOps Unit 2 := ⟨fun _ _ => (), fun _ p => firstPositive 0 p⟩ with ho
  have hc : ∀ key, SingleChoiceContract fun i p => o.choice (o.foldIn key i) p := fun _ i p h0 h1 => firstPositive_contract 0 p h0 h1
  set pre : Data 2 ℝ ℝ := ⟨![0, 1], fun _ => 1⟩ with hpre
  have hord : ∀ t : Fin (1 + (1 - 1)), t ∈ ([0] : List (Fin (1 + (1 - 1)))) := fun t => by
    have : t = 0 := Fin.ext (by have := t.2; simp only [Fin.val_zero]; omega)
    simp [this]
  have hsymm : ∀ a b : ℝ, a * b = b * a := mul_comm
  obtain ⟨f, h1, h2⟩ := C73_run 1000 (fun a b : ℝ => a * b) hsymm (softmaxDraw (fun i p => o.choice (o.foldIn () i) p) 1) true (.leaf none) (.inl rfl) 1 one_pos (by norm_num) pre
    (C47_draw_contract _ (hc ()) one_pos _ fun _ => one_pos) none (by simp) [0] hord
  obtain ⟨g, h3, h4⟩ := C12_reduce_greedy 1000 (fun a b : ℝ => a * b) hsymm true (.leaf none) (.inl rfl) 1 one_pos pre (by simp [hpre]) none (by simp) [0] hord (by simp [PosCount, hpre])
  refine ⟨o, pre, hc, _, _, _, _, (C14_iterative_one _ _ _ _ _ (.inl rfl) _ _ _ _).trans h1, (C14_iterative_one _ _ _ _ _ (.inl rfl) _ _ _ _).trans h3, ?_, ?_⟩
  · have h5 := h2 0
    have hsc : ∀ j, herdingScores (fun a b : ℝ => a * b) pre.data (fun j => avg pre.weights fun l => pre.data l * pre.data j) true ((0 : Fin 1) : ℕ) (extend f) j
        = .fin (avg pre.weights fun l => pre.data l * pre.data j) := by
      intro j
      unfold herdingScores
      rw [if_neg (by rintro ⟨-, t, ht, -⟩; simp at ht)]
      simp
    obtain ⟨p, hp, hg⟩ := C47_gibbs one_pos (herdingScores (fun a b : ℝ => a * b) pre.data (fun j => avg pre.weights fun l => pre.data l * pre.data j) true ((0 : Fin 1) : ℕ) (extend f))
      (fun j => by rw [hsc]; simp) (fun j => by rw [hsc]; simp) ⟨0, _, hsc 0⟩
    have hpos : 0 < p 0 := lt_of_le_of_ne (hg.nonneg 0) fun h => by
      have := (hg.excluded 0).1 h.symm
      rw [hsc] at this
      simp [scoreOf] at this
    have h6 : softmaxDraw (fun i p => o.choice (o.foldIn () i) p) 1 ((0 : Fin 1) : ℕ) (herdingScores (fun a b : ℝ => a * b) pre.data
        (fun j => avg pre.weights fun l => pre.data l * pre.data j) true ((0 : Fin 1) : ℕ) (extend f)) = 0 := by
      unfold softmaxDraw
      rw [hp]
      have : ∃ v, (Ext.fin (p 0) : Ext ℝ) = .fin v ∧ 0 < v := ⟨p 0, rfl, hpos⟩
      simp only [ho, firstPositive, List.finRange_succ, List.finRange_zero, List.map_nil, List.map_cons, List.find?_cons]
      rw [decide_eq_true this]
      rfl
    rw [h6] at h5
    exact h5.symm
  · have h5 := h4 0
    have h6 := h5.2.1 0 ⟨by simp [hpre], fun _ t ht => absurd ht (by simp)⟩
    have h7 : g 0 = 0 ∨ g 0 = 1 := by
      have := (g 0).2
      rcases Nat.lt_succ_iff_lt_or_eq.1 this with h | h
      · exact Or.inl (Fin.ext (by simp; omega))
      · exact Or.inr (Fin.ext (by simpa using h))
    rcases h7 with h7 | h7
    · have h8 := h5.2.1 1 ⟨by simp [hpre], fun _ t ht => absurd ht (by simp)⟩
      rw [h7] at h8
      norm_num [hpre, avg, Fin.sum_univ_two] at h8
    · simp [h7]

/-! ### The worked example -/

theorem herdingRefine_cached (big : ℝ) (k : X → X → ℝ) (prob : Option (Draw n ℝ)) (unique : Bool) (bs : PyTree (Option ℤ)) {m : ℕ} (size : ℕ) (pre : Data n X ℝ) (c : Data m ℤ ℝ)
    (ord : List (Fin (m + (size - m)))) {rm : List ℝ} (h : gramianRowMean big k pre bs = .ok rm) :
    herdingRefine big k prob unique bs size pre c none ord = herdingRefine big k prob unique bs size pre c (some rm) ord := by
  unfold herdingRefine cachedRowMean
  rw [h]

/-- The experiment of `examples/iterative_probabilistic_kh.py` follows `reduce_iterative` with the same key and schedule, although it makes a new solver for every iteration and
computes the row mean again: its coreset is the same, and entry `i` of the data it returns is the MMD of the coreset after `i + 1` iterations. -/
theorem C74_experiment (o : KeyOps Key n) (key : Key) {L : ℕ} [NeZero L] (schedule : Option (Fin L → ℝ)) (big : ℝ) (k mmdKernel : X → X → ℝ) (hk : ∀ a b, k a b = k b a)
    (size : ℕ) (hsize : 0 < size) (pre : Data n X ℝ) (hw : ∑ j, pre.weights j ≠ 0)
    (hd : ∀ i, DrawContract (solverDraw o (iterationSettings o ⟨schedule.isSome, 1, key⟩ schedule i)) pre.weights)
    (ord : List (Fin (size + (size - size)))) (hord : ∀ t, t ∈ ord) (hpos : PosCount pre.weights size) :
    ∃ c : ℕ → Fin size → Fin n, ∃ st, (∀ N, reduceIterativeKeyed o ⟨schedule.isSome, 1, key⟩ schedule big k true (.leaf none) size pre none ord (N + 1)
        = .ok (⟨fun t => (c N t : ℤ), fun _ => 1⟩, st)) ∧ (∀ N, Function.Injective (c N)) ∧
      ∀ N, iterativeExperiment o key schedule big k mmdKernel size pre ord (N + 1) = .ok (⟨fun t => (c N t : ℤ), fun _ => 1⟩,
        fun i => Real.sqrt (max 0 (mmdSq mmdKernel pre.data pre.weights (fun t => pre.data (c i t)) (fun _ => 1)))) := by
  have hle : size ≤ n := by
    refine hpos.trans ?_
    simpa using Finset.card_le_univ (Finset.univ.filter (fun j => 0 < pre.weights j))
  have hbs : ValidBlock (.leaf none) := .inl rfl
  have hrm := C05_gramian_row_mean big k hk (NeZero.pos n) pre hw (.leaf none) hbs
  set st := List.ofFn fun j => avg pre.weights (fun i => k (pre.data i) (pre.data j)) with hstdef
  set prob : ℕ → Option (Draw n ℝ) := fun i => solverDraw o (iterationSettings o ⟨schedule.isSome, 1, key⟩ schedule i) with hprob
  obtain ⟨h0, hs⟩ := C14_iterative big k prob true (.leaf none) size pre none ord hle st hrm
  have hst : ∀ (m : ℕ) (c : Data m ℤ ℝ) (i : ℕ) (ord' : List (Fin (m + (size - m)))) (r : Data size ℤ ℝ × List ℝ),
      herdingRefine big k (prob i) true (.leaf none) size pre c (some st) ord' = .ok r → r.2 = st := by
    intro m c i ord' r hr
    unfold herdingRefine cachedRowMean at hr
    simp only at hr
    split at hr
    · cases hr
    · cases hr; rfl
  have hvalid : ∀ N, ∃ f : Fin size → Fin n, herdingReduceIterative big k prob true (.leaf none) size pre none ord (N + 1)
        = .ok (⟨fun t => (f t : ℤ), fun _ => 1⟩, st) ∧ Function.Injective f := by
    intro N
    induction N with
    | zero =>
      obtain ⟨f, st', h1, -, h3⟩ := C11_refine_valid big k (prob 0) true (.leaf none) hbs size hsize pre (hd 0) (⟨fun _ => 0, fun _ => 0⟩ : Data size ℤ ℝ)
        (inRange_zero size) (some st) ord hord (by simpa using hpos)
      have h4 := hst _ _ _ _ _ h1
      simp only at h4
      subst h4
      exact ⟨f, by rw [hs 0, h0]; exact h1, h3 rfl⟩
    | succ N ih =>
      obtain ⟨f, h1, -⟩ := ih
      obtain ⟨f', st', h2, -, h3⟩ := C11_refine_valid big k (prob (N + 1)) true (.leaf none) hbs size hsize pre (hd (N + 1)) (⟨fun t => (f t : ℤ), fun _ => 1⟩ : Data size ℤ ℝ)
        (fun t => ⟨by simp, by have := (f t).2; simp⟩) (some st) ord hord (by simpa using hpos)
      have h4 := hst _ _ _ _ _ h2
      simp only at h4
      subst h4
      exact ⟨f', by rw [hs (N + 1), h1]; exact h2, h3 rfl⟩
  choose c hc hinj using hvalid
  refine ⟨c, st, hc, hinj, fun N => ?_⟩
  set C : ℕ → Data size ℤ ℝ := fun t => match t with
    | 0 => ⟨fun _ => 0, fun _ => 0⟩
    | t + 1 => ⟨fun j => (c t j : ℤ), fun _ => 1⟩ with hC
  have hCi : ∀ t, herdingReduceIterative big k prob true (.leaf none) size pre none ord t = .ok (C t, st) := by
    intro t
    cases t with
    | zero => exact h0
    | succ t => exact hc t
  have hstep : ∀ i, herdingRefine big k (prob i) true (.leaf none) size pre (C i) none ord = .ok (C (i + 1), st) := by
    intro i
    rw [herdingRefine_cached big k _ true _ size pre _ ord hrm]
    have := hs i
    rw [hCi, hCi] at this
    exact this.symm
  unfold iterativeExperiment initialCoresubset
  rw [if_neg (by omega)]
  simp only
  have key := forLoop_inv (P := fun t (acc : Except Err (Data size ℤ ℝ × (Fin (N + 1) → ℝ))) => acc = .ok (C t, fun i =>
      if (i : ℕ) < t then Real.sqrt (max 0 (mmdSq mmdKernel pre.data pre.weights (fun j => pre.data (c i j)) (fun _ => 1))) else 0)) (N + 1)
    (fun i (acc : Except Err (Data size ℤ ℝ × (Fin (N + 1) → ℝ))) =>
      match acc with
      | .error e => .error e
      | .ok (c, d) =>
        match herdingRefine big k (prob i) true (.leaf none) size pre c none ord with
        | .error e => .error e
        | .ok r =>
          match mmdCompute big mmdKernel pre ⟨fun t => pre.data (gatherIdx n (r.1.data t)), r.1.weights⟩ (.leaf none) with
          | .error e => .error e
          | .ok v => .ok (r.1, Function.update d i v)) (.ok (⟨fun _ => 0, fun _ => 0⟩, fun _ => 0)) (by simp [hC]) (fun i acc hacc => by
      subst hacc
      have h1 := hstep i
      have h2 := C07_compute big mmdKernel (NeZero.pos n) hsize pre (⟨fun t => pre.data (gatherIdx n ((C (i + 1)).data t)), (C (i + 1)).weights⟩ : Data size X ℝ) hw
        (by simp [hC, hsize.ne']) (.leaf none) hbs
      simp only
      rw [h1]
      simp only
      rw [h2]
      simp only [hC, gatherIdx_coe]
      congr 2
      funext j
      by_cases hj : j = i
      · subst hj; simp
      · have hne : (j : ℕ) ≠ i := fun h => hj (Fin.ext h)
        rw [Function.update_of_ne hj]
        by_cases hlt : (j : ℕ) < i
        · rw [if_pos hlt, if_pos (by omega)]
        · rw [if_neg hlt, if_neg (by omega)])
  refine Eq.trans ?_ (key.trans ?_)
  · congr 1
    funext i acc
    cases schedule <;> rcases acc with e | ⟨c, d⟩ <;> rfl
  · simp only [hC]
    congr 2
    funext i
    rw [if_pos i.2]

theorem mmdSq_scale {m : ℕ} (s : ℝ) (k : X → X → ℝ) (x : Fin n → X) (w : Fin n → ℝ) (y : Fin m → X) (v : Fin m → ℝ) :
    mmdSq (fun a b => s * k a b) x w y v = s * mmdSq k x w y v := by
  have h : ∀ {p : ℕ} (u : Fin p → ℝ) (F : Fin p → ℝ), avg u (fun i => s * F i) = s * avg u F := by
    intro p u F
    unfold avg
    rw [← mul_div_assoc, Finset.mul_sum]
    congr 1
    exact Finset.sum_congr rfl fun i _ => by ring
  unfold mmdSq
  simp only [h]
  ring

/-- The standard run of the experiment, with a kernel of constant diagonal and a non-negative multiple of it for the MMD: the recorded values never increase, so that no iteration is
above the first, which is the MMD of the coreset of a plain `reduce` (the dashed line "Standard KH reduce"). -/
theorem C74_experiment_standard (o : KeyOps Key n) (key : Key) {L : ℕ} [NeZero L] (big : ℝ) (k : X → X → ℝ) (hk : ∀ a b, k a b = k b a) {s : ℝ} (hs : 0 ≤ s)
    (size : ℕ) (hsize : 0 < size) (pre : Data n X ℝ) (hw : ∑ j, pre.weights j ≠ 0) (hdiag : ∀ i j, k (pre.data i) (pre.data i) = k (pre.data j) (pre.data j))
    (ord : List (Fin (size + (size - size)))) (hord : ∀ t, t ∈ ord) (hpos : PosCount pre.weights size) (N : ℕ) :
    ∃ c d, iterativeExperiment (L := L) o key none big k (fun a b => s * k a b) size pre ord (N + 1) = .ok (c, d) ∧ (∀ i j, i ≤ j → d j ≤ d i) ∧
      ∃ r st, herdingReduce big k none true (.leaf none) size pre none ord = .ok (r, st) ∧
        mmdCompute big (fun a b => s * k a b) pre (⟨fun t => pre.data (gatherIdx n (r.data t)), r.weights⟩ : Data size X ℝ) (.leaf none) = .ok (d 0) := by
  obtain ⟨c, st, h1, -, h2⟩ := C74_experiment o key (none : Option (Fin L → ℝ)) big k (fun a b => s * k a b) hk size hsize pre hw
    (fun i draw hd => by simp [solverDraw, iterationSettings] at hd) ord hord hpos
  obtain ⟨f, st', h3⟩ := C41_iterative_descent big k hk true (.leaf none) (.inl rfl) size hsize pre hdiag hw ord hord hpos
  have h4 : ∀ M, c M = f M := by
    intro M
    have h5 := h1 M
    rw [show (⟨(none : Option (Fin L → ℝ)).isSome, 1, key⟩ : HerdingSettings Key) = ⟨false, 1, key⟩ from rfl, C74_not_probabilistic, (h3 M).1] at h5
    have h6 := congrArg (fun d : Data size ℤ ℝ × List ℝ => d.1.data) (Except.ok.inj h5)
    funext t
    have h7 : ((f M t : ℕ) : ℤ) = ((c M t : ℕ) : ℤ) := congrFun h6 t
    exact (Fin.ext (by exact_mod_cast h7)).symm
  have hanti : Antitone fun M => mmdSq k pre.data pre.weights (fun t => pre.data (f M t)) (fun _ => 1) := antitone_nat_of_succ_le fun M => (h3 M).2.2.2
  refine ⟨_, _, h2 N, fun i j hij => ?_, ⟨fun t => (c 0 t : ℤ), fun _ => 1⟩, st, ?_, ?_⟩
  · simp only [mmdSq_scale, h4]
    exact Real.sqrt_le_sqrt (max_le_max le_rfl (mul_le_mul_of_nonneg_left (hanti hij) hs))
  · have h5 := h1 0
    rw [show (⟨(none : Option (Fin L → ℝ)).isSome, 1, key⟩ : HerdingSettings Key) = ⟨false, 1, key⟩ from rfl, C74_not_probabilistic,
      C14_iterative_one big k _ true (.leaf none) (.inl rfl)] at h5
    exact h5
  · rw [C07_compute big _ (NeZero.pos n) hsize pre _ hw (by simp [hsize.ne']) (.leaf none) (.inl rfl)]
    simp only [gatherIdx_coe]
    rfl

end

/-! ### The hypotheses can be met -/

example := C74_refine_run 1000 (fun a b : ℝ => a * b) (fun a b => mul_comm a b) (softmaxDraw firstPositive 1) true (.leaf none) (.inl rfl) 2 (by norm_num) (by norm_num)
  (⟨![0, 1, 2], ![1, 2, 3]⟩ : Data 3 ℝ ℝ) (C47_draw_contract firstPositive firstPositive_contract one_pos _ (by intro j; fin_cases j <;> simp)) (fun t => if t = 0 then 2 else 1)
  (u := 1 / 2) (by norm_num) none (by simp) [0, 1] (by decide)

example := C74_iterative_run 1000 (fun a b : ℝ => a * b) (fun a b => mul_comm a b) (fun a => softmaxDraw firstPositive (1 / ((a : ℝ) + 1))) true (.leaf none) (.inl rfl) 2 (by norm_num)
  (by norm_num) (⟨![0, 1, 2], ![1, 2, 3]⟩ : Data 3 ℝ ℝ) (fun a => C47_draw_contract firstPositive firstPositive_contract (by positivity) _ (by intro j; fin_cases j <;> simp))
  none (by simp) [0, 1] (by decide) 4

example := C74_law (pivotLaw_inverse (n := 3)) 1000 (fun a b : ℝ => a * b) (fun a b => mul_comm a b) 1 ![1, 1 / 8, 1 / 27] (by intro l; fin_cases l <;> norm_num) true (.leaf none) (.inl rfl) 2
  (by norm_num) (by norm_num) ⟨![0, 1, 2], ![1, 2, 3]⟩ (by intro j; fin_cases j <;> simp) none (by simp) [0, 1] (by decide) 2

example := C74_expected_unique (pivotLaw_inverse (n := 3)) 1000 (fun a b : ℝ => a * b) (isPSD_rankOne fun x : ℝ => x) 1 ![1, 1 / 8, 1 / 27] (by intro l; fin_cases l <;> norm_num)
  (.leaf none) (.inl rfl) 2 (by norm_num) (by norm_num) ⟨![1, -1, 1], fun _ => 1⟩ one_pos (fun _ => rfl) none (by simp) [0, 1] (by decide) 1 (by intro j; fin_cases j <;> norm_num) 2

example := C74_expected (pivotLaw_inverse (n := 3)) 1000 (fun a b : ℝ => a * b) (fun a b => mul_comm a b) 1 ![1 / 1000] (by intro l; fin_cases l; norm_num)
  (.leaf none) (.inl rfl) 2 (by norm_num) (by norm_num) ⟨![1, -1, 1], ![1, 2, 3]⟩ (by intro j; fin_cases j <;> simp) none (by simp) [0, 1] (by decide) 1
  (by intro j; fin_cases j <;> norm_num) 7

example := C74_refine_expected (pivotLaw_inverse (n := 3)) 1000 (fun a b : ℝ => a * b) (fun a b => mul_comm a b) (T := 1 / 50) (by norm_num) true
  (.leaf none) (.inl rfl) 2 (by norm_num) (by norm_num) ⟨![1, -1, 1], ![1, 2, 3]⟩ (by intro j; fin_cases j <;> simp) (by intro i j; fin_cases i <;> fin_cases j <;> norm_num)
  ![2, 0] (u := 1) one_pos (fun _ => by decide) none (by simp) [0, 1] (by decide)

/-- Keys whose `fold_in` and `choice` meet the contract. -/
noncomputable def Spec.simpleKeys (n : ℕ) [NeZero n] : KeyOps ℕ n := ⟨fun a i => a + i, fun _ p => firstPositive 0 p⟩

example : reduceIterativeKeyed (simpleKeys 3) ⟨false, 5, 7⟩ (some ![1, 1 / 8]) 1000 (fun a b : ℝ => a * b) true (.leaf none) 2 ⟨![0, 1, 2], ![1, 2, 3]⟩ none [0, 1] 3
    = reduceIterativeKeyed (L := 1) (simpleKeys 3) ⟨false, 1, 0⟩ none 1000 (fun a b : ℝ => a * b) true (.leaf none) 2 ⟨![0, 1, 2], ![1, 2, 3]⟩ none [0, 1] 3 := by
  rw [C74_not_probabilistic, C74_not_probabilistic]

example := C74_no_schedule (L := 1) (L' := 4) (simpleKeys 3) true 5 1 7 1000 (fun a b : ℝ => a * b) true (.leaf none) 2 ⟨![0, 1, 2], ![1, 2, 3]⟩ none [0, 1] 3

example := C74_schedule_length (simpleKeys 3) true 5 1 7 ![1, 1 / 8] ![1, 1 / 8, 1 / 8, 1 / 8] (by intro i; fin_cases i <;> rfl) 1000 (fun a b : ℝ => a * b) true (.leaf none) 2
  ⟨![0, 1, 2], ![1, 2, 3]⟩ none [0, 1]

example := C74_experiment (simpleKeys 3) 7 (some ![1, 1 / 8, 1 / 27]) 1000 (fun a b : ℝ => a * b) (fun a b => 3 * (a * b)) (fun a b => mul_comm a b) 2 (by norm_num)
  ⟨![0, 1, 2], ![1, 2, 3]⟩ (by rw [Fin.sum_univ_three]; show (1 : ℝ) + 2 + 3 ≠ 0; norm_num) (fun i => by
    refine C47_draw_contract _ (fun j p h0 h1 => firstPositive_contract 0 p h0 h1) ?_ _ (by intro j; fin_cases j <;> simp)
    have : ∀ l : Fin 3, (0 : ℝ) < ![1, 1 / 8, 1 / 27] l := by intro l; fin_cases l <;> norm_num
    exact this (gatherIdx 3 (i : ℤ))) [0, 1] (by decide) (by
    unfold PosCount
    rw [Finset.filter_true_of_mem fun j _ => by fin_cases j <;> norm_num]
    simp)

example := C74_experiment_standard (L := 1) (simpleKeys 3) 7 1000 (fun a b : ℝ => a * b) (fun a b => mul_comm a b) (s := 3) (by norm_num) 2 (by norm_num)
  ⟨![1, -1, 1], ![1, 2, 3]⟩ (by rw [Fin.sum_univ_three]; show (1 : ℝ) + 2 + 3 ≠ 0; norm_num) (by intro i j; fin_cases i <;> fin_cases j <;> norm_num) [0, 1] (by decide) (by
    unfold PosCount
    rw [Finset.filter_true_of_mem fun j _ => by fin_cases j <;> norm_num]
    simp) 4

end Coreax
