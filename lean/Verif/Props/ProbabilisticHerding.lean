import Verif.Props.Softmax
import Verif.Props.ApproxHerding
import Verif.Props.PivotRate

/-!
# C73: probabilistic kernel herding on average over its keys
-/

set_option linter.unusedSectionVars false

namespace Coreax

open Spec MeasureTheory Greedy

/-! ### The mean over the paths of a random sequence -/

section
variable {n : ℕ} [NeZero n]

/-- The probability of the first `i` elements if element `t` has law `Q t s`, `s` being the earlier ones. -/
noncomputable def Path.prob (Q : ℕ → (ℕ → Fin n) → Fin n → ℝ) (s : ℕ → Fin n) (i : ℕ) : ℝ := ∏ t ∈ Finset.range i, Q t s (s t)

/-- The mean of a function of the first `i` elements. -/
noncomputable def Path.mean (Q : ℕ → (ℕ → Fin n) → Fin n → ℝ) (V : (ℕ → Fin n) → ℝ) (i : ℕ) : ℝ :=
  ∑ s : Fin i → Fin n, Path.prob Q (extend s) i * V (extend s)

/-- A quantity at time `i` depends on what came before. -/
def Path.Causal {α : Type*} (F : ℕ → (ℕ → Fin n) → α) : Prop := ∀ i s s', (∀ t < i, s t = s' t) → F i s = F i s'

theorem Path.prob_congr {Q : ℕ → (ℕ → Fin n) → Fin n → ℝ} (hQ : Path.Causal Q) {s s' : ℕ → Fin n} {i : ℕ} (h : ∀ t < i, s t = s' t) :
    Path.prob Q s i = Path.prob Q s' i := by
  refine Finset.prod_congr rfl fun t ht => ?_
  have ht := Finset.mem_range.1 ht
  rw [hQ t s s' fun u hu => h u (by omega), h t ht]

theorem Path.mean_succ {Q : ℕ → (ℕ → Fin n) → Fin n → ℝ} (hQ : Path.Causal Q) {V : ℕ → (ℕ → Fin n) → ℝ} (hV : Path.Causal V) (i : ℕ) :
    Path.mean Q (V (i + 1)) (i + 1)
      = ∑ s : Fin i → Fin n, Path.prob Q (extend s) i * ∑ p, Q i (extend s) p * V (i + 1) (Function.update (extend s) i p) := by
  unfold Path.mean
  rw [← Equiv.sum_comp (Fin.snocEquiv fun _ : Fin (i + 1) => Fin n), Fintype.sum_prod_type, Finset.sum_comm]
  refine Finset.sum_congr rfl fun s _ => ?_
  rw [Finset.mul_sum]
  refine Finset.sum_congr rfl fun p _ => ?_
  have e : (Fin.snocEquiv fun _ : Fin (i + 1) => Fin n) (p, s) = Fin.snoc (α := fun _ => Fin n) s p := rfl
  have hv : V (i + 1) (extend (Fin.snoc (α := fun _ => Fin n) s p)) = V (i + 1) (Function.update (extend s) i p) := by
    refine hV _ _ _ fun t ht => ?_
    rcases Nat.lt_succ_iff_lt_or_eq.1 ht with h | rfl
    · rw [extend_snoc_lt s p h, Function.update_of_ne (by omega)]
    · rw [extend_snoc_last, Function.update_self]
  rw [e, hv, Path.prob, Finset.prod_range_succ, ← Path.prob, extend_snoc_last,
    Path.prob_congr hQ (fun t ht => extend_snoc_lt s p ht), hQ i _ _ (fun t ht => extend_snoc_lt s p ht), mul_assoc]

theorem Path.prob_nonneg {Q : ℕ → (ℕ → Fin n) → Fin n → ℝ} {N : ℕ} (h0 : ∀ i < N, ∀ s p, 0 ≤ Q i s p) (s : ℕ → Fin n) {i : ℕ} (hi : i ≤ N) :
    0 ≤ Path.prob Q s i :=
  Finset.prod_nonneg fun t ht => h0 t (by have := Finset.mem_range.1 ht; omega) _ _

theorem Path.prob_total {Q : ℕ → (ℕ → Fin n) → Fin n → ℝ} (hQ : Path.Causal Q) {N : ℕ} (h1 : ∀ i < N, ∀ s, ∑ p, Q i s p = 1) {i : ℕ} (hi : i ≤ N) :
    ∑ s : Fin i → Fin n, Path.prob Q (extend s) i = 1 := by
  induction i with
  | zero => simp [Path.prob]
  | succ i ih =>
    have := Path.mean_succ hQ (V := fun _ _ => 1) (fun _ _ _ _ => rfl) i
    unfold Path.mean at this
    simp only [mul_one, h1 i (by omega)] at this
    rw [this]
    exact ih (by omega)

/-- If a quantity grows on average by at most `c i` in step `i`, wherever the path may be, its mean grows by at most that. -/
theorem Path.mean_le {Q : ℕ → (ℕ → Fin n) → Fin n → ℝ} (hQ : Path.Causal Q) {V : ℕ → (ℕ → Fin n) → ℝ} (hV : Path.Causal V) {N : ℕ}
    (h0 : ∀ i < N, ∀ s p, 0 ≤ Q i s p) (h1 : ∀ i < N, ∀ s, ∑ p, Q i s p = 1) (c : ℕ → ℝ)
    (hstep : ∀ i < N, ∀ s, Path.prob Q s i ≠ 0 → ∑ p, Q i s p * V (i + 1) (Function.update s i p) ≤ V i s + c i) {i : ℕ} (hi : i ≤ N) :
    Path.mean Q (V i) i ≤ V 0 (fun _ => 0) + ∑ t ∈ Finset.range i, c t := by
  induction i with
  | zero =>
    simp only [Path.mean, Path.prob, Finset.range_zero, Finset.prod_empty, one_mul, Finset.sum_empty, add_zero, Finset.univ_unique,
      Finset.sum_singleton]
    exact le_of_eq (hV 0 _ _ fun t ht => absurd ht (by omega))
  | succ i ih =>
    rw [Path.mean_succ hQ hV, Finset.sum_range_succ]
    have h2 : ∑ s : Fin i → Fin n, Path.prob Q (extend s) i * ∑ p, Q i (extend s) p * V (i + 1) (Function.update (extend s) i p)
        ≤ ∑ s : Fin i → Fin n, Path.prob Q (extend s) i * (V i (extend s) + c i) := by
      refine Finset.sum_le_sum fun s _ => ?_
      rcases eq_or_ne (Path.prob Q (extend s) i) 0 with h | h
      · rw [h, zero_mul, zero_mul]
      · exact mul_le_mul_of_nonneg_left (hstep i (by omega) _ h) (Path.prob_nonneg h0 _ (by omega))
    refine h2.trans ?_
    simp only [mul_add, Finset.sum_add_distrib, ← Finset.sum_mul, Path.prob_total hQ h1 (show i ≤ N by omega), one_mul]
    have := ih (by omega)
    unfold Path.mean at this
    linarith

end

/-! ### The Gibbs distribution does at least as well as any other, up to an entropy -/

/-- Gibbs' inequality, term by term. -/
theorem gibbs_term {p q : ℝ} (hq : 0 ≤ q) (hp : 0 < p) : q * Real.log p ≤ q * Real.log q + (p - q) := by
  rcases hq.eq_or_lt with h | h
  · rw [← h]; simp [hp.le]
  · have h1 := Real.log_le_sub_one_of_pos (div_pos hp h)
    rw [Real.log_div hp.ne' h.ne'] at h1
    have h2 := mul_le_mul_of_nonneg_left h1 h.le
    have h3 : q * (p / q - 1) = p - q := by field_simp
    rw [h3] at h2
    linarith

/-- The mean score under the Gibbs distribution over a set `S` of candidates is at least the mean under any distribution `q` over `S`, less the temperature
times the divergence of `q` from the uniform distribution on `S`. -/
theorem Spec.IsGibbs.mean_ge {n : ℕ} {score : Fin n → Option ℝ} {T : ℝ} (hT : 0 < T) {p : Fin n → ℝ} (h : IsGibbs score T p) {S : Finset (Fin n)} {a : Fin n → ℝ}
    (hS : ∀ j ∈ S, score j = some (a j)) (hS' : ∀ j, j ∉ S → score j = none) {q : Fin n → ℝ} (hq0 : ∀ j ∈ S, 0 ≤ q j) (hq1 : ∑ j ∈ S, q j = 1) :
    ∑ j ∈ S, q j * a j - T * (∑ j ∈ S, q j * Real.log (q j) + Real.log S.card) ≤ ∑ j, p j * a j := by
  have hne : S.Nonempty := by
    rw [Finset.nonempty_iff_ne_empty]
    rintro rfl
    simp at hq1
  obtain ⟨b, hb⟩ := hne
  have hp0 : ∀ j, j ∉ S → p j = 0 := fun j hj => (h.excluded j).2 (hS' j hj)
  have hpp : ∀ j ∈ S, 0 < p j := fun j hj => lt_of_le_of_ne (h.nonneg j) (Ne.symm fun h0 => by
    have := (h.excluded j).1 h0
    rw [hS j hj] at this
    cases this)
  have hp1 : ∑ j ∈ S, p j = 1 := by
    rw [← h.total]
    exact Finset.sum_subset (Finset.subset_univ S) fun j _ hj => hp0 j hj
  have hsum : ∑ j, p j * a j = ∑ j ∈ S, p j * a j :=
    (Finset.sum_subset (Finset.subset_univ S) fun j _ hj => by rw [hp0 j hj, zero_mul]).symm
  have hcard : 0 < (S.card : ℝ) := by exact_mod_cast Finset.card_pos.2 ⟨b, hb⟩
  set c := a b - T * Real.log (p b) with hc
  have ha : ∀ j ∈ S, a j = T * Real.log (p j) + c := by
    intro j hj
    have h1 := h.ratio j b (a j) (a b) (hS j hj) (hS b hb)
    have h2 := congrArg Real.log h1
    rw [Real.log_mul (hpp b hb).ne' (Real.exp_pos _).ne', Real.log_exp] at h2
    rw [hc, h2]
    field_simp
    ring
  have lin : ∀ r : Fin n → ℝ, ∑ j ∈ S, r j = 1 → ∑ j ∈ S, r j * a j = T * ∑ j ∈ S, r j * Real.log (p j) + c := by
    intro r hr
    have : ∑ j ∈ S, r j * a j = ∑ j ∈ S, (T * (r j * Real.log (p j)) + c * r j) :=
      Finset.sum_congr rfl fun j hj => by rw [ha j hj]; ring
    rw [this, Finset.sum_add_distrib, ← Finset.mul_sum, ← Finset.mul_sum, hr, mul_one]
  rw [hsum, lin p hp1, lin q hq1]
  have e1 : ∑ j ∈ S, q j * Real.log (p j) ≤ ∑ j ∈ S, q j * Real.log (q j) := by
    have := Finset.sum_le_sum fun j hj => gibbs_term (hq0 j hj) (hpp j hj)
    rw [Finset.sum_add_distrib, Finset.sum_sub_distrib, hp1, hq1] at this
    linarith
  have e2 : -Real.log S.card ≤ ∑ j ∈ S, p j * Real.log (p j) := by
    have := Finset.sum_le_sum fun j (hj : j ∈ S) => gibbs_term (hpp j hj).le (inv_pos.2 hcard)
    rw [Finset.sum_add_distrib, Finset.sum_sub_distrib, hp1, ← Finset.sum_mul, hp1, Finset.sum_const, nsmul_eq_mul,
      mul_inv_cancel₀ hcard.ne', Real.log_inv] at this
    linarith
  nlinarith [mul_le_mul_of_nonneg_left e1 hT.le, mul_le_mul_of_nonneg_left e2 hT.le]

/-- How far the weights are from equal: the divergence of the normalised weights from the uniform distribution. -/
noncomputable def Spec.skew {n : ℕ} (w : Fin n → ℝ) : ℝ :=
  ∑ j, (w j / ∑ l, w l) * Real.log (w j / ∑ l, w l) + Real.log n

/-- The divergence is between zero (equal weights) and `log n`. -/
theorem C73_skew_bounds {n : ℕ} [NeZero n] {w : Fin n → ℝ} (hw : ∀ j, 0 < w j) : 0 ≤ skew w ∧ skew w ≤ Real.log n := by
  have hn : (0 : ℝ) < n := by exact_mod_cast NeZero.pos n
  have hW : 0 < ∑ l, w l := Finset.sum_pos (fun j _ => hw j) ⟨0, Finset.mem_univ _⟩
  have h1 : ∑ j, w j / ∑ l, w l = 1 := by rw [← Finset.sum_div, div_self hW.ne']
  constructor
  · have := Finset.sum_le_sum fun j (_ : j ∈ Finset.univ) => gibbs_term (div_pos (hw j) hW).le (inv_pos.2 hn)
    rw [Finset.sum_add_distrib, Finset.sum_sub_distrib, h1, ← Finset.sum_mul, h1, Finset.sum_const, nsmul_eq_mul, Finset.card_univ, Fintype.card_fin,
      mul_inv_cancel₀ hn.ne', Real.log_inv] at this
    unfold skew
    linarith
  · unfold skew
    have : ∑ j, (w j / ∑ l, w l) * Real.log (w j / ∑ l, w l) ≤ 0 := Finset.sum_nonpos fun j _ => by
      refine mul_nonpos_of_nonneg_of_nonpos (div_pos (hw j) hW).le (Real.log_nonpos (div_pos (hw j) hW).le ?_)
      rw [div_le_one hW]
      exact Finset.single_le_sum (fun l _ => (hw l).le) (Finset.mem_univ j)
    linarith

theorem Spec.skew_equal {n : ℕ} [NeZero n] {w : Fin n → ℝ} {u : ℝ} (hu : 0 < u) (hw : ∀ j, w j = u) : skew w = 0 := by
  have hn : (0 : ℝ) < n := by exact_mod_cast NeZero.pos n
  unfold skew
  simp only [hw, Finset.sum_const, Finset.card_univ, Fintype.card_fin, nsmul_eq_mul]
  have : u / (n * u) = (n : ℝ)⁻¹ := by field_simp
  rw [this, Real.log_inv, ← mul_assoc, mul_inv_cancel₀ hn.ne']
  ring

/-! ### The run -/

/-- What probabilistic herding chooses from in step `i`, after the rows `s 0, …, s (i - 1)`: minus infinity for a row that is taken (if rows are to be distinct),
otherwise its mean similarity to the data less the mean similarity to the rows chosen. -/
noncomputable def Spec.herdingScores {X : Type*} {n : ℕ} (k : X → X → ℝ) (x : Fin n → X) (r : Fin n → ℝ) (unique : Bool) (i : ℕ) (s : ℕ → Fin n) (j : Fin n) : Ext ℝ :=
  open Classical in
  if unique = true ∧ ∃ t < i, s t = j then .ninf else .fin (r j - (∑ t ∈ Finset.range i, k (x j) (x (s t))) / ((i : ℝ) + 1))

theorem herdingScores_causal {X : Type*} {n : ℕ} [NeZero n] (k : X → X → ℝ) (x : Fin n → X) (r : Fin n → ℝ) (unique : Bool) :
    Path.Causal (herdingScores k x r unique) := by
  intro i s s' h
  funext j
  unfold herdingScores
  have e1 : (∃ t < i, s t = j) ↔ ∃ t < i, s' t = j :=
    ⟨fun ⟨t, ht, e⟩ => ⟨t, ht, by rw [← h t ht, e]⟩, fun ⟨t, ht, e⟩ => ⟨t, ht, by rw [h t ht, e]⟩⟩
  have e2 : ∑ t ∈ Finset.range i, k (x j) (x (s t)) = ∑ t ∈ Finset.range i, k (x j) (x (s' t)) :=
    Finset.sum_congr rfl fun t ht => by rw [h t (Finset.mem_range.1 ht)]
  simp only [e1, e2]

theorem herdingScores_ok {X : Type*} {n : ℕ} (k : X → X → ℝ) (x : Fin n → X) (r : Fin n → ℝ) (unique : Bool) {i : ℕ} (hi : i < n) (s : ℕ → Fin n) :
    (∀ j, herdingScores k x r unique i s j ≠ .nan) ∧ (∀ j, herdingScores k x r unique i s j ≠ .pinf) ∧
      ∃ j v, herdingScores k x r unique i s j = .fin v := by
  classical
  refine ⟨fun j => ?_, fun j => ?_, ?_⟩
  · unfold herdingScores; split_ifs <;> simp
  · unfold herdingScores; split_ifs <;> simp
  · obtain ⟨j, hj⟩ : ∃ j : Fin n, j ∉ (Finset.range i).image s := by
      by_contra hc
      push Not at hc
      have h1 : (Finset.univ : Finset (Fin n)).card ≤ ((Finset.range i).image s).card := Finset.card_le_card fun j _ => hc j
      have h2 := Finset.card_image_le (s := Finset.range i) (f := s)
      rw [Finset.card_univ, Fintype.card_fin] at h1
      rw [Finset.card_range] at h2
      omega
    refine ⟨j, _, if_neg ?_⟩
    rintro ⟨-, t, ht, e⟩
    exact hj (Finset.mem_image.2 ⟨t, Finset.mem_range.2 ht, e⟩)

section
variable {X : Type*} [Zero X] {n : ℕ} [NeZero n]

/-- A draw from the residuals as a selection. -/
theorem Greedy.draw_selects {draw : Draw n ℝ} {w : Fin n → ℝ} (hd : DrawContract (some draw) w) (rm : Fin n → ℝ) :
    Selects w (herdingSelect (some draw) rm) (fun i size mp j => draw i (herdingResidual rm mp size) = (j : ℤ)) := by
  intro i mp size h1 h2 h3 h4
  obtain ⟨j, v, a, b, -⟩ := prob_selects hd rm i mp size h1 h2 h3 h4
  exact ⟨j, v, a, b, a⟩

/-- `reduce` with a random draw: every row is the one drawn from the scores given the earlier ones. -/
theorem C73_run (big : ℝ) (k : X → X → ℝ) (hk : ∀ a b, k a b = k b a) (draw : Draw n ℝ) (unique : Bool)
    (bs : PyTree (Option ℤ)) (hbs : ValidBlock bs) (size : ℕ) (hsize : 0 < size) (hle : size ≤ n) (pre : Data n X ℝ)
    (hd : DrawContract (some draw) pre.weights) (state : Option (List ℝ)) (hst : ∀ l, state = some l → gramianRowMean big k pre bs = .ok l)
    (ord : List (Fin (size + (size - size)))) (hord : ∀ t, t ∈ ord) :
    ∃ f : Fin size → Fin n, herdingReduce big k (some draw) unique bs size pre state ord
        = .ok (⟨fun t => (f t : ℤ), fun _ => 1⟩, List.ofFn fun j => avg pre.weights fun i => k (pre.data i) (pre.data j)) ∧
      ∀ i : Fin size, draw i (herdingScores k pre.data (fun j => avg pre.weights fun l => k (pre.data l) (pre.data j)) unique i (extend f)) = (f i : ℤ) := by
  classical
  have hw := (hd draw rfl).1
  have hW : 0 < ∑ j, pre.weights j := Finset.sum_pos (fun j _ => hw j) ⟨0, Finset.mem_univ _⟩
  have hen : Enough pre.weights unique (size + (size - size)) := by
    unfold Enough
    cases unique
    · simpa using ⟨0, hw 0⟩
    · simp only [if_true, gt_iff_lt, Finset.filter_true_of_mem fun j _ => hw j, Finset.card_univ, Fintype.card_fin]
      omega
  have hz : ∀ t, (padIndices (⟨fun _ => 0, fun _ => 0⟩ : Data size ℤ ℝ) size).weights t = 0 := by
    intro t
    refine Fin.addCases (fun a => ?_) (fun a => ?_) t <;> simp [padIndices, zeroPad]
  have hrm := Greedy.rowMean_of_state big k hk pre hW.ne' bs hbs state hst
  set rm : Fin n → ℝ := fun j => avg pre.weights fun l => k (pre.data l) (pre.data j) with hrmdef
  obtain ⟨off, s, g, hrun, hinv, hoff⟩ := Greedy.run big k pre hbs unique (draw_selects hd (asVec n (List.ofFn rm)))
    hsize (⟨fun _ => 0, fun _ => 0⟩ : Data size ℤ ℝ) (inRange_zero size) hord hen
  refine ⟨outRows g, ?_, fun i => ?_⟩
  · unfold herdingReduce initialCoresubset
    rw [if_neg (by omega)]
    simp only
    unfold herdingRefine
    rw [hrm]
    simp only [hrun]
    rfl
  · obtain ⟨mp, hmask, hdraw⟩ := hinv.step (i.castLE (out_le_padded size size)) i.2
    rw [count_eq] at hdraw
    simp only [Fin.val_castLE] at hdraw
    rw [show outRows g i = g (i.castLE (out_le_padded size size)) from rfl, ← hdraw]
    congr 1
    have hcount : Spec.otherCount (fun _ : Fin size => (0 : ℝ)) i = i := by
      simp [Spec.otherCount]
    have hext : ∀ t : Fin size, extend (outRows g) t = outRows g t := fun t => by simp [extend]
    funext j
    have hmp : mp j = validPen off k pre.data pre.weights unique (padIndices (⟨fun _ => 0, fun _ => 0⟩ : Data size ℤ ℝ) size).weights g
        (rows (⟨fun _ => 0, fun _ => 0⟩ : Data size ℤ ℝ) size) (i.castLE (out_le_padded size size)) j := by
      rcases hmask.cases j with h | ⟨-, -, t, -, -, ht⟩
      · exact h
      · rw [hz t] at ht; exact absurd ht (lt_irrefl _)
    have hex : (∃ t, t < i.castLE (out_le_padded size size) ∧ g t = j) ↔ ∃ t < (i : ℕ), extend (outRows g) t = j := by
      constructor
      · rintro ⟨t, ht, e⟩
        have ht' : (t : ℕ) < i := by simpa [Fin.lt_def] using ht
        refine ⟨t, ht', ?_⟩
        rw [hext ⟨t, ht'.trans i.2⟩]
        exact e
      · rintro ⟨t, ht, e⟩
        rw [hext ⟨t, ht.trans i.2⟩] at e
        exact ⟨(⟨t, ht.trans i.2⟩ : Fin size).castLE (out_le_padded size size), by simpa [Fin.lt_def] using ht, e⟩
    have hsum : Spec.otherSum k pre.data (members (n := n) (⟨fun _ => 0, fun _ => 0⟩ : Data size ℤ ℝ)) (fun _ => (0 : ℝ)) (outRows g) i j
        = ∑ t ∈ Finset.range i, k (pre.data j) (pre.data (extend (outRows g) t)) := by
      have : Spec.otherSum k pre.data (members (n := n) (⟨fun _ => 0, fun _ => 0⟩ : Data size ℤ ℝ)) (fun _ => (0 : ℝ)) (outRows g) i j
          = ∑ t : Fin size, if t < i then k (pre.data j) (pre.data (outRows g t)) else 0 := by
        simp [Spec.otherSum]
      rw [this, sum_castLE i.2.le, Finset.sum_range]
      · refine Finset.sum_congr rfl fun t _ => ?_
        rw [if_pos (by rw [Fin.lt_def]; exact t.2), ← hext (t.castLE i.2.le)]
        rfl
      · intro t ht
        rw [if_neg (by rw [Fin.lt_def]; simpa using ht)]
    have hpos : ((i : ℕ) : ℝ) + 1 ≠ 0 := by positivity
    have hcast : (((i : ℕ) + 1 : ℕ) : ℝ) = ((i : ℕ) : ℝ) + 1 := by push_cast; rfl
    unfold herdingScores herdingResidual
    rw [hmp, hcount, asVec_ofFn, hcast]
    unfold validPen
    rw [if_pos (hw j)]
    by_cases hc : unique = true ∧ ∃ t < (i : ℕ), extend (outRows g) t = j
    · rw [if_pos hc, if_pos ⟨hc.1, hex.2 hc.2⟩, Ext.pinf_div_fin (by positivity)]
      rfl
    · rw [if_neg hc, if_neg fun h => hc ⟨h.1, hex.1 h.2⟩, restSum_eq, hoff ⟨1, one_pos, fun _ => Or.inl rfl⟩, zero_add, hsum,
        Ext.fin_div_fin hpos, Ext.fin_sub_fin]

end

/-! ### Its law -/

section
variable {X U : Type} [Zero X] [MeasurableSpace U] {μ : Measure U} [IsProbabilityMeasure μ] {n : ℕ} [NeZero n] {D : U → (Fin n → Ext ℝ) → ℤ}

theorem PivotLaw.singleChoice (hD : PivotLaw μ D) {size : ℕ} (ω : Fin size → U) : SingleChoiceContract (drawOf D ω) := by
  intro i p h0 h1
  obtain ⟨j, v, h2, h3, h4⟩ := drawOf_contract hD ω i (fun j => .fin (p j)) (fun j => ⟨p j, h0 j, rfl⟩) (by
    by_contra hc
    push Not at hc
    have : ∀ j, p j = 0 := fun j => le_antisymm (not_lt.1 fun h => hc j (p j) h rfl) (h0 j)
    simp [this] at h1)
  refine ⟨j, h2, ?_⟩
  have : p j = v := by simpa using h4
  rw [this]; exact h3

/-- The law of the row drawn in step `i`. -/
noncomputable def herdingLaw (μ : Measure U) (D : U → (Fin n → Ext ℝ) → ℤ) (k : X → X → ℝ) (x : Fin n → X) (r : Fin n → ℝ) (unique : Bool) (T : ℝ) :
    ℕ → (ℕ → Fin n) → Fin n → ℝ :=
  fun i s j => μ.real {u | D u (herdingProbs T (herdingScores k x r unique i s)) = (j : ℤ)}

theorem herdingLaw_causal (k : X → X → ℝ) (x : Fin n → X) (r : Fin n → ℝ) (unique : Bool) (T : ℝ) :
    Path.Causal (herdingLaw μ D k x r unique T) := by
  intro i s s' h
  funext j
  unfold herdingLaw
  rw [herdingScores_causal k x r unique i s s' h]

theorem herdingLaw_gibbs (hD : PivotLaw μ D) (k : X → X → ℝ) (x : Fin n → X) (r : Fin n → ℝ) (unique : Bool) {T : ℝ} (hT : 0 < T) {i : ℕ} (hi : i < n)
    (s : ℕ → Fin n) : IsGibbs (fun j => scoreOf (herdingScores k x r unique i s j)) T (herdingLaw μ D k x r unique T i s) := by
  obtain ⟨h1, h2, h3⟩ := herdingScores_ok k x r unique hi s
  obtain ⟨p, hp, hg⟩ := C47_gibbs hT _ h1 h2 h3
  have : herdingLaw μ D k x r unique T i s = p := by
    funext j
    unfold herdingLaw
    rw [hp, hD.law p hg.nonneg (by rw [hg.total]; exact one_pos) j, hg.total, div_one]
  rw [this]
  exact hg

/-- Rows drawn one after the other with independent keys: the mean of any quantity is the mean over the paths. -/
theorem Path.integral (hD : PivotLaw μ D) {size : ℕ} {F : ℕ → (ℕ → Fin n) → Fin n → Ext ℝ} (hF : Path.Causal F) {f : (Fin size → U) → Fin size → Fin n}
    (hf : ∀ ω (i : Fin size), D (ω i) (F i (extend (f ω))) = (f ω i : ℤ)) (G : (ℕ → Fin n) → ℝ) :
    Integrable (fun ω => G (extend (f ω))) (Measure.pi fun _ => μ) ∧
      ∫ ω, G (extend (f ω)) ∂(Measure.pi fun _ => μ) = Path.mean (fun i s j => μ.real {u | D u (F i s) = (j : ℤ)}) G size := by
  classical
  have hext : ∀ (s : Fin size → Fin n) (i : Fin size), extend s i = s i := fun s i => by simp [extend]
  have hiff : ∀ ω s, f ω = s ↔ ∀ i : Fin size, D (ω i) (F i (extend s)) = (s i : ℤ) := by
    intro ω s
    constructor
    · rintro rfl i
      exact hf ω i
    · intro h
      have key : ∀ m : ℕ, ∀ i : Fin size, (i : ℕ) < m → f ω i = s i := by
        intro m
        induction m with
        | zero => intro i hi; omega
        | succ m ih =>
          intro i hi
          have e : F i (extend (f ω)) = F i (extend s) := by
            refine hF i _ _ fun t ht => ?_
            have ht' : t < size := ht.trans i.2
            rw [show extend (f ω) t = f ω ⟨t, ht'⟩ from hext (f ω) ⟨t, ht'⟩, show extend s t = s ⟨t, ht'⟩ from hext s ⟨t, ht'⟩]
            exact ih ⟨t, ht'⟩ (by simp only; omega)
          have h4 := hf ω i
          rw [e, h i] at h4
          exact Fin.ext (by exact_mod_cast h4.symm)
      funext i
      exact key (i + 1) i (by omega)
  have hset : ∀ s, {ω | f ω = s} = Set.pi Set.univ fun i : Fin size => {u | D u (F i (extend s)) = (s i : ℤ)} := by
    intro s; ext ω
    simp only [Set.mem_ofPred_eq, Set.mem_pi, Set.mem_univ, true_imp_iff]
    exact hiff ω s
  have hmeas : ∀ s, MeasurableSet {ω | f ω = s} := fun s => by
    rw [hset s]
    exact MeasurableSet.univ_pi fun i => hD.meas _ _
  have hprob : ∀ s, (Measure.pi fun _ : Fin size => μ).real {ω | f ω = s} = Path.prob (fun i s j => μ.real {u | D u (F i s) = (j : ℤ)}) (extend s) size := by
    intro s
    rw [hset s, Measure.real, Measure.pi_pi, ENNReal.toReal_prod, Path.prob, Finset.prod_range]
    refine Finset.prod_congr rfl fun i _ => ?_
    rw [hext]
    rfl
  have hdec : ∀ ω, G (extend (f ω)) = ∑ s, {ω | f ω = s}.indicator (fun _ => G (extend s)) ω := by
    intro ω
    rw [Finset.sum_eq_single (f ω)]
    · simp
    · intro s _ hne
      exact Set.indicator_of_notMem (fun h => hne (by exact (show f ω = s from h).symm)) _
    · simp
  have hint : ∀ s, Integrable ({ω | f ω = s}.indicator fun _ => G (extend s)) (Measure.pi fun _ : Fin size => μ) :=
    fun s => (integrable_const _).indicator (hmeas s)
  simp only [hdec]
  refine ⟨integrable_finsetSum _ fun s _ => hint s, ?_⟩
  rw [integral_finsetSum _ fun s _ => hint s, Path.mean]
  refine Finset.sum_congr rfl fun s _ => ?_
  rw [integral_indicator_const _ (hmeas s), hprob s, smul_eq_mul]

/-- The rows drawn by `reduce`, over independent keys for the iterations: the mean of any quantity is the mean over the paths in which each row is drawn from
the Gibbs distribution of the scores given the earlier rows. -/
theorem C73_law (hD : PivotLaw μ D) (big : ℝ) (k : X → X → ℝ) (hk : ∀ a b, k a b = k b a) {T : ℝ} (hT : 0 < T) (unique : Bool)
    (bs : PyTree (Option ℤ)) (hbs : ValidBlock bs) (size : ℕ) (hsize : 0 < size) (hle : size ≤ n) (pre : Data n X ℝ)
    (hw : ∀ j, 0 < pre.weights j) (state : Option (List ℝ)) (hst : ∀ l, state = some l → gramianRowMean big k pre bs = .ok l)
    (ord : List (Fin (size + (size - size)))) (hord : ∀ t, t ∈ ord) :
    ∃ f : (Fin size → U) → Fin size → Fin n,
      (∀ ω, ∃ st, herdingReduce big k (some (softmaxDraw (drawOf D ω) T)) unique bs size pre state ord = .ok (⟨fun t => (f ω t : ℤ), fun _ => 1⟩, st)) ∧
      ∃ P : ℕ → (ℕ → Fin n) → Fin n → ℝ, Path.Causal P ∧
        (∀ i < n, ∀ s, IsGibbs (fun j => scoreOf (herdingScores k pre.data (fun j => avg pre.weights fun l => k (pre.data l) (pre.data j)) unique i s j)) T (P i s)) ∧
        ∀ G : (ℕ → Fin n) → ℝ, Integrable (fun ω => G (extend (f ω))) (Measure.pi fun _ => μ) ∧
          ∫ ω, G (extend (f ω)) ∂(Measure.pi fun _ => μ) = Path.mean P G size := by
  classical
  set r : Fin n → ℝ := fun j => avg pre.weights fun l => k (pre.data l) (pre.data j) with hr
  have hrun := fun ω : Fin size → U => C73_run big k hk (softmaxDraw (drawOf D ω) T) unique bs hbs size hsize hle pre
    (C47_draw_contract _ (hD.singleChoice ω) hT _ hw) state hst ord hord
  choose f h1 h2 using hrun
  refine ⟨f, fun ω => ⟨_, h1 ω⟩, herdingLaw μ D k pre.data r unique T, herdingLaw_causal k pre.data r unique T,
    fun i hi s => herdingLaw_gibbs hD k pre.data r unique hT hi s, fun G => ?_⟩
  refine Path.integral hD (F := fun i s => herdingProbs T (herdingScores k pre.data r unique i s))
    (fun i s s' h => by simp only [herdingScores_causal k pre.data r unique i s s' h]) (fun ω i => ?_) G
  rw [← h2 ω i]
  simp [softmaxDraw, drawOf, ← hr]

end

/-! ### The rate on average -/

namespace Rate

section
variable {X : Type*} {n : ℕ} [NeZero n]

theorem sumMean_congr (k : X → X → ℝ) (x : Fin n → X) (w : Fin n → ℝ) {s s' : ℕ → Fin n} {i : ℕ} (h : ∀ t < i, s t = s' t) :
    sumMean k x w s i = sumMean k x w s' i :=
  Finset.sum_congr rfl fun t ht => by rw [h t (Finset.mem_range.1 ht)]

theorem score_congr (k : X → X → ℝ) (x : Fin n → X) (w : Fin n → ℝ) {s s' : ℕ → Fin n} {i : ℕ} (h : ∀ t < i, s t = s' t) (j : Fin n) :
    score k x w s i j = score k x w s' i j := by
  unfold score
  rw [Finset.sum_congr rfl fun t ht => by rw [h t (Finset.mem_range.1 ht)]]

theorem potential_causal (k : X → X → ℝ) (x : Fin n → X) (w : Fin n → ℝ) : Path.Causal (fun i s => potential k x w s i) := by
  intro i s s' h
  have e : sumPair k x s i = sumPair k x s' i :=
    Finset.sum_congr rfl fun a ha => Finset.sum_congr rfl fun b hb => by rw [h a (Finset.mem_range.1 ha), h b (Finset.mem_range.1 hb)]
  simp only [potential, sumMean_congr k x w h, e]

theorem potential_update (k : X → X → ℝ) (hk : ∀ a b, k a b = k b a) (x : Fin n → X) (w : Fin n → ℝ) (s : ℕ → Fin n) (i : ℕ) (p : Fin n) :
    potential k x w (Function.update s i p) (i + 1) = potential k x w s i + (2 * i + 1) * meanSq k x w - 2 * sumMean k x w s i
      - 2 * score k x w s i p + k (x p) (x p) := by
  have h : ∀ t < i, Function.update s i p t = s t := fun t ht => Function.update_of_ne (by omega) _ _
  rw [potential_succ k hk, Function.update_self, score_congr k x w h, sumMean_congr k x w h]
  have := potential_causal k x w i _ _ h
  simp only at this
  rw [this]

/-- The mean growth of the potential in one step. -/
theorem mean_potential_step (k : X → X → ℝ) (hk : ∀ a b, k a b = k b a) (x : Fin n → X) (w : Fin n → ℝ) {R : ℝ} (hR : ∀ j, k (x j) (x j) ≤ R)
    (s : ℕ → Fin n) (i : ℕ) {q : Fin n → ℝ} (hq0 : ∀ p, 0 ≤ q p) (hq1 : ∑ p, q p = 1) :
    ∑ p, q p * potential k x w (Function.update s i p) (i + 1)
      ≤ potential k x w s i + (2 * i + 1) * meanSq k x w - 2 * sumMean k x w s i - 2 * ∑ p, q p * score k x w s i p + R := by
  have h1 : ∑ p, q p * potential k x w (Function.update s i p) (i + 1)
      = ∑ p, (q p * (potential k x w s i + (2 * i + 1) * meanSq k x w - 2 * sumMean k x w s i) - 2 * (q p * score k x w s i p) + q p * k (x p) (x p)) :=
    Finset.sum_congr rfl fun p _ => by rw [potential_update k hk]; ring
  rw [h1, Finset.sum_add_distrib, Finset.sum_sub_distrib, ← Finset.sum_mul, hq1, one_mul, ← Finset.mul_sum]
  have h2 : ∑ p, q p * k (x p) (x p) ≤ ∑ p, q p * R := Finset.sum_le_sum fun p _ => mul_le_mul_of_nonneg_left (hR p) (hq0 p)
  rw [← Finset.sum_mul, hq1, one_mul] at h2
  linarith

end

end Rate

section
variable {X U : Type} [Zero X] [MeasurableSpace U] {μ : Measure U} [IsProbabilityMeasure μ] {n : ℕ} [NeZero n] {D : U → (Fin n → Ext ℝ) → ℤ}

/-- From the potential to the discrepancy. -/
theorem Rate.mean_mmdSq {f : (Fin size → U) → Fin size → Fin n} (hsize : 0 < size) (k : X → X → ℝ) (x : Fin n → X) (w : Fin n → ℝ) (ω : Fin size → U) :
    mmdSq k x w (fun t => x (f ω t)) (fun _ => 1) = Rate.potential k x w (extend (f ω)) size / (size : ℝ) ^ 2 := by
  have hs : (0 : ℝ) < size := by positivity
  rw [Rate.potential_eq_mmdSq k x w hsize (f ω) _ (fun t => by simp [extend]), mul_div_cancel_left₀ _ (by positivity)]

/-- The mean of the potential when rows may repeat. -/
theorem Rate.mean_potential_le (k : X → X → ℝ) (hk : ∀ a b, k a b = k b a) {T : ℝ} (hT : 0 < T) (x : Fin n → X) {w : Fin n → ℝ} (hw : ∀ j, 0 < w j)
    {R : ℝ} (hR : ∀ j, k (x j) (x j) ≤ R) {size : ℕ} {P : ℕ → (ℕ → Fin n) → Fin n → ℝ} (hP : Path.Causal P)
    (hG : ∀ i < size, ∀ s, IsGibbs (fun j => scoreOf (herdingScores k x (fun j => avg w fun l => k (x l) (x j)) false i s j)) T (P i s)) :
    Path.mean P (fun s => Rate.potential k x w s size) size ≤ size * (R - Rate.meanSq k x w) + T * skew w * (size * (size + 1)) := by
  have hW : 0 < ∑ j, w j := Finset.sum_pos (fun j _ => hw j) ⟨0, Finset.mem_univ _⟩
  have hmean := Path.mean_le hP (Rate.potential_causal k x w) (N := size) (fun i hi s p => (hG i hi s).nonneg p)
    (fun i hi s => (hG i hi s).total) (fun i => R - Rate.meanSq k x w + 2 * (((i : ℝ) + 1) * (T * skew w))) (fun i hi s _ => by
      refine (Rate.mean_potential_step k hk x w hR s i (hG i hi s).nonneg (hG i hi s).total).trans ?_
      have hp : (0 : ℝ) < (i : ℝ) + 1 := by positivity
      have hg := (hG i hi s).mean_ge hT (S := Finset.univ) (a := fun j => Rate.score k x w s i j / ((i : ℝ) + 1)) (fun j _ => by
        simp only [herdingScores, Bool.false_eq_true, false_and, if_false, scoreOf, Rate.score, Rate.meanAt]
        congr 1
        field_simp) (by simp) (q := fun j => w j / ∑ l, w l) (fun j _ => (div_pos (hw j) hW).le) (by rw [← Finset.sum_div, div_self hW.ne'])
      have e1 : ∑ j, w j / (∑ l, w l) * (Rate.score k x w s i j / ((i : ℝ) + 1)) = avg w (Rate.score k x w s i) / ((i : ℝ) + 1) := by
        unfold avg
        rw [Finset.sum_div, Finset.sum_div]
        exact Finset.sum_congr rfl fun j _ => by ring
      have e2 : ∑ j, P i s j * (Rate.score k x w s i j / ((i : ℝ) + 1)) = (∑ j, P i s j * Rate.score k x w s i j) / ((i : ℝ) + 1) := by
        rw [Finset.sum_div]
        exact Finset.sum_congr rfl fun j _ => by ring
      rw [e1, e2, Finset.card_univ, Fintype.card_fin, Rate.avg_score k hk, sub_le_iff_le_add, div_add' _ _ _ hp.ne', div_le_div_iff_of_pos_right hp] at hg
      have e3 : ∑ j, w j / (∑ l, w l) * Real.log (w j / ∑ l, w l) + Real.log n = skew w := rfl
      rw [e3] at hg
      linarith) le_rfl
  have h0 : Rate.potential k x w (fun _ => 0) 0 = 0 := by simp [Rate.potential, Rate.sumPair]
  have hsum : ∀ N : ℕ, ∑ i ∈ Finset.range N, (R - Rate.meanSq k x w + 2 * (((i : ℝ) + 1) * (T * skew w)))
      = N * (R - Rate.meanSq k x w) + T * skew w * (N * (N + 1)) := by
    intro N
    induction N with
    | zero => simp
    | succ N ih => rw [Finset.sum_range_succ, ih]; push_cast; ring
  rwa [h0, zero_add, hsum] at hmean

/-- With `unique=False` and positive weights, at every positive temperature: over independent keys for the iterations, the mean of the squared MMD between the data and
the coreset of probabilistic herding is at most `(max k(x, x) - ‖μ‖²) / size` plus the temperature times the divergence of the weights from equal ones
(and a factor `(size + 1) / size`). -/
theorem C73_expected_rate (hD : PivotLaw μ D) (big : ℝ) (k : X → X → ℝ) (hk : ∀ a b, k a b = k b a) {T : ℝ} (hT : 0 < T)
    (bs : PyTree (Option ℤ)) (hbs : ValidBlock bs) (size : ℕ) (hsize : 0 < size) (hle : size ≤ n) (pre : Data n X ℝ)
    (hw : ∀ j, 0 < pre.weights j) (state : Option (List ℝ)) (hst : ∀ l, state = some l → gramianRowMean big k pre bs = .ok l)
    (ord : List (Fin (size + (size - size)))) (hord : ∀ t, t ∈ ord) (R : ℝ) (hR : ∀ j, k (pre.data j) (pre.data j) ≤ R) :
    ∃ f : (Fin size → U) → Fin size → Fin n,
      (∀ ω, ∃ st, herdingReduce big k (some (softmaxDraw (drawOf D ω) T)) false bs size pre state ord = .ok (⟨fun t => (f ω t : ℤ), fun _ => 1⟩, st)) ∧
      Integrable (fun ω => mmdSq k pre.data pre.weights (fun t => pre.data (f ω t)) (fun _ => 1)) (Measure.pi fun _ => μ) ∧
      ∫ ω, mmdSq k pre.data pre.weights (fun t => pre.data (f ω t)) (fun _ => 1) ∂(Measure.pi fun _ => μ)
        ≤ (R - avg pre.weights fun i => avg pre.weights fun j => k (pre.data i) (pre.data j)) / size + T * skew pre.weights * ((size + 1) / size) := by
  obtain ⟨f, h1, P, hP, hG, h2⟩ := C73_law hD big k hk hT false bs hbs size hsize hle pre hw state hst ord hord
  set w := pre.weights
  set x := pre.data
  have hs : (0 : ℝ) < size := by positivity
  have hW : 0 < ∑ j, w j := Finset.sum_pos (fun j _ => hw j) ⟨0, Finset.mem_univ _⟩
  have hmean := Rate.mean_potential_le k hk hT x hw hR (size := size) hP fun i hi s => hG i (by omega) s
  refine ⟨f, h1, ?_, ?_⟩
  · simp only [Rate.mean_mmdSq hsize]
    exact ((h2 fun s => Rate.potential k x w s size).1).div_const _
  · simp only [Rate.mean_mmdSq hsize]
    rw [integral_div, (h2 fun s => Rate.potential k x w s size).2]
    have e : (R - avg w fun i => avg w fun j => k (x i) (x j)) / size + T * skew w * ((size + 1) / size)
        = (size * (R - Rate.meanSq k x w) + T * skew w * (size * (size + 1))) / (size : ℝ) ^ 2 := by
      unfold Rate.meanSq
      field_simp
    rw [e]
    exact div_le_div_of_nonneg_right hmean (by positivity)

/-- On equally weighted data the temperature costs nothing in this bound: at every temperature it is that of deterministic herding. -/
theorem C73_equal_weights (hD : PivotLaw μ D) (big : ℝ) (k : X → X → ℝ) (hk : ∀ a b, k a b = k b a) {T : ℝ} (hT : 0 < T)
    (bs : PyTree (Option ℤ)) (hbs : ValidBlock bs) (size : ℕ) (hsize : 0 < size) (hle : size ≤ n) (pre : Data n X ℝ) {u : ℝ} (hu : 0 < u)
    (hw : ∀ j, pre.weights j = u) (state : Option (List ℝ)) (hst : ∀ l, state = some l → gramianRowMean big k pre bs = .ok l)
    (ord : List (Fin (size + (size - size)))) (hord : ∀ t, t ∈ ord) (R : ℝ) (hR : ∀ j, k (pre.data j) (pre.data j) ≤ R) :
    ∃ f : (Fin size → U) → Fin size → Fin n,
      (∀ ω, ∃ st, herdingReduce big k (some (softmaxDraw (drawOf D ω) T)) false bs size pre state ord = .ok (⟨fun t => (f ω t : ℤ), fun _ => 1⟩, st)) ∧
      Integrable (fun ω => mmdSq k pre.data pre.weights (fun t => pre.data (f ω t)) (fun _ => 1)) (Measure.pi fun _ => μ) ∧
      ∫ ω, mmdSq k pre.data pre.weights (fun t => pre.data (f ω t)) (fun _ => 1) ∂(Measure.pi fun _ => μ)
        ≤ (R - avg pre.weights fun i => avg pre.weights fun j => k (pre.data i) (pre.data j)) / size := by
  obtain ⟨f, h1, h2, h3⟩ := C73_expected_rate hD big k hk hT bs hbs size hsize hle pre (fun j => by rw [hw]; exact hu) state hst ord hord R hR
  refine ⟨f, h1, h2, ?_⟩
  rwa [skew_equal hu hw, mul_zero, zero_mul, add_zero] at h3

/-- The mean of the potential when rows are distinct. -/
theorem Rate.mean_potential_le_unique (k : X → X → ℝ) (hk : IsPSD k) {T : ℝ} (hT : 0 < T) (x : Fin n → X) {w : Fin n → ℝ} {u : ℝ} (hu : 0 < u) (hw : ∀ j, w j = u)
    {R : ℝ} (hR : ∀ j, k (x j) (x j) ≤ R) {size : ℕ} (hle : size ≤ n) {P : ℕ → (ℕ → Fin n) → Fin n → ℝ} (hP : Path.Causal P)
    (hG : ∀ i < size, ∀ s, IsGibbs (fun j => scoreOf (herdingScores k x (fun j => avg w fun l => k (x l) (x j)) true i s j)) T (P i s)) :
    Path.mean P (fun s => Rate.potential k x w s size) size ≤ size * (R - Rate.meanSq k x w / 2) := by
  classical
  have hpos : ∀ j, 0 < w j := fun j => by rw [hw]; exact hu
  have hmean := Path.mean_le hP (Rate.potential_causal k x w) (N := size) (fun i hi s p => (hG i hi s).nonneg p)
    (fun i hi s => (hG i hi s).total) (fun i => R - Rate.meanSq k x w / 2) (fun i hi s hprob => by
      refine (Rate.mean_potential_step k hk.1 x w hR s i (hG i hi s).nonneg (hG i hi s).total).trans ?_
      have hp : (0 : ℝ) < (i : ℝ) + 1 := by positivity
      -- a path of positive probability has distinct rows
      have hdist : ∀ a < i, ∀ b < a, s b ≠ s a := by
        intro a ha b hb e
        have h3 : P a s (s a) ≠ 0 := Finset.prod_ne_zero_iff.1 hprob a (Finset.mem_range.2 ha)
        refine h3 (((hG a (ha.trans hi) s).excluded (s a)).2 ?_)
        simp only [herdingScores]
        rw [if_pos ⟨trivial, b, hb, e⟩]
        rfl
      set S := Finset.univ.filter (fun j => 0 < w j ∧ ∀ t < i, s t ≠ j) with hS
      have hmemS : ∀ j, j ∈ S ↔ ¬ ∃ t < i, s t = j := by
        intro j
        simp only [hS, Finset.mem_filter, Finset.mem_univ, true_and, hpos, not_exists, not_and]
      obtain ⟨q, hq⟩ : ∃ q, q ∈ S := by
        obtain ⟨j, v, hj⟩ := (herdingScores_ok k x (fun j => avg w fun l => k (x l) (x j)) true (show i < n by omega) s).2.2
        refine ⟨j, (hmemS j).2 fun hc => ?_⟩
        unfold herdingScores at hj
        rw [if_pos ⟨rfl, hc⟩] at hj
        cases hj
      have hcard : (0 : ℝ) < S.card := by exact_mod_cast Finset.card_pos.2 ⟨q, hq⟩
      have hg := (hG i hi s).mean_ge hT (S := S) (a := fun j => Rate.score k x w s i j / ((i : ℝ) + 1)) (fun j hj => by
        simp only [herdingScores]
        rw [if_neg fun h => (hmemS j).1 hj h.2]
        simp only [scoreOf, Rate.score, Rate.meanAt]
        congr 1
        field_simp) (fun j hj => by
        simp only [herdingScores]
        rw [if_pos ⟨trivial, not_not.1 fun h => hj ((hmemS j).2 h)⟩]
        rfl) (q := fun _ => (S.card : ℝ)⁻¹) (fun _ _ => by positivity) (by
          rw [Finset.sum_const, nsmul_eq_mul, mul_inv_cancel₀ hcard.ne'])
      have e0 : ∑ _j ∈ S, (S.card : ℝ)⁻¹ * Real.log (S.card : ℝ)⁻¹ + Real.log S.card = 0 := by
        rw [Finset.sum_const, nsmul_eq_mul, ← mul_assoc, mul_inv_cancel₀ hcard.ne', Real.log_inv]
        ring
      have e1 : ∑ j ∈ S, (S.card : ℝ)⁻¹ * (Rate.score k x w s i j / ((i : ℝ) + 1)) = ((∑ j ∈ S, Rate.score k x w s i j) / S.card) / ((i : ℝ) + 1) := by
        rw [Finset.sum_div, Finset.sum_div]
        exact Finset.sum_congr rfl fun j _ => by ring
      have e2 : ∑ j, P i s j * (Rate.score k x w s i j / ((i : ℝ) + 1)) = (∑ j, P i s j * Rate.score k x w s i j) / ((i : ℝ) + 1) := by
        rw [Finset.sum_div]
        exact Finset.sum_congr rfl fun j _ => by ring
      rw [e0, mul_zero, sub_zero, e1, e2, div_le_div_iff_of_pos_right hp, div_le_iff₀' hcard] at hg
      have key := Rate.remaining_mean k hk.1 x (fun c => hk.2 n x c) w u hu (fun j => Or.inr (hw j)) s i (fun t _ => hpos _) hdist q
        ⟨hpos q, fun t ht e => (hmemS q).1 hq ⟨t, ht, e⟩⟩ (∑ p, P i s p * Rate.score k x w s i p) hg
      linarith) le_rfl
  have h0 : Rate.potential k x w (fun _ => 0) 0 = 0 := by simp [Rate.potential, Rate.sumPair]
  rwa [h0, zero_add, Finset.sum_const, Finset.card_range, nsmul_eq_mul] at hmean

/-- With distinct rows (the default) on equally weighted data, at every positive temperature, for a positive semi-definite kernel: the mean is at most
`(max k(x, x) - ‖μ‖² / 2) / size`, as for deterministic herding. -/
theorem C73_expected_rate_unique (hD : PivotLaw μ D) (big : ℝ) (k : X → X → ℝ) (hk : IsPSD k) {T : ℝ} (hT : 0 < T)
    (bs : PyTree (Option ℤ)) (hbs : ValidBlock bs) (size : ℕ) (hsize : 0 < size) (hle : size ≤ n) (pre : Data n X ℝ) {u : ℝ} (hu : 0 < u)
    (hw : ∀ j, pre.weights j = u) (state : Option (List ℝ)) (hst : ∀ l, state = some l → gramianRowMean big k pre bs = .ok l)
    (ord : List (Fin (size + (size - size)))) (hord : ∀ t, t ∈ ord) (R : ℝ) (hR : ∀ j, k (pre.data j) (pre.data j) ≤ R) :
    ∃ f : (Fin size → U) → Fin size → Fin n,
      (∀ ω, ∃ st, herdingReduce big k (some (softmaxDraw (drawOf D ω) T)) true bs size pre state ord = .ok (⟨fun t => (f ω t : ℤ), fun _ => 1⟩, st)) ∧
      (∀ ω, Function.Injective (f ω)) ∧
      Integrable (fun ω => mmdSq k pre.data pre.weights (fun t => pre.data (f ω t)) (fun _ => 1)) (Measure.pi fun _ => μ) ∧
      ∫ ω, mmdSq k pre.data pre.weights (fun t => pre.data (f ω t)) (fun _ => 1) ∂(Measure.pi fun _ => μ)
        ≤ (R - (avg pre.weights fun i => avg pre.weights fun j => k (pre.data i) (pre.data j)) / 2) / size := by
  classical
  have hpos : ∀ j, 0 < pre.weights j := fun j => by rw [hw]; exact hu
  obtain ⟨f, h1, P, hP, hG, h2⟩ := C73_law hD big k hk.1 hT true bs hbs size hsize hle pre hpos state hst ord hord
  have hinj : ∀ ω, Function.Injective (f ω) := by
    intro ω
    obtain ⟨f', st, g1, -, g3⟩ := C11_reduce_valid big k (some (softmaxDraw (drawOf D ω) T)) true bs hbs size hsize pre
      (C47_draw_contract _ (hD.singleChoice ω) hT _ hpos) state ord hord (by
        unfold PosCount
        rw [Finset.filter_true_of_mem fun j _ => hpos j, Finset.card_univ, Fintype.card_fin]
        exact hle)
    obtain ⟨st', g4⟩ := h1 ω
    rw [g4] at g1
    have : f ω = f' := by
      have g5 := congrArg (fun d : Data size ℤ ℝ × List ℝ => d.1.data) (Except.ok.inj g1)
      funext t
      have g6 : ((f ω t : ℕ) : ℤ) = ((f' t : ℕ) : ℤ) := congrFun g5 t
      exact Fin.ext (by exact_mod_cast g6)
    rw [this]; exact g3 rfl
  set w := pre.weights
  set x := pre.data
  have hs : (0 : ℝ) < size := by positivity
  have hmean := Rate.mean_potential_le_unique k hk hT x hu hw hR hle hP fun i hi s => hG i (by omega) s
  refine ⟨f, h1, hinj, ?_, ?_⟩
  · simp only [Rate.mean_mmdSq hsize]
    exact ((h2 fun s => Rate.potential k x w s size).1).div_const _
  · simp only [Rate.mean_mmdSq hsize]
    rw [integral_div, (h2 fun s => Rate.potential k x w s size).2]
    have e : (R - (avg w fun i => avg w fun j => k (x i) (x j)) / 2) / size = (size * (R - Rate.meanSq k x w / 2)) / (size : ℝ) ^ 2 := by
      unfold Rate.meanSq
      field_simp
    rw [e]
    exact div_le_div_of_nonneg_right hmean (by positivity)

end

/-! ### A temperature too high for unequal weights -/

/-- `N` rows with the value 1, then `N` rows with the value 0. -/
noncomputable def Spec.hotRows (N : ℕ) : Fin (N + N) → ℝ := Fin.append (fun _ => 1) (fun _ => 0)

/-- The ones count three times as much as the zeros. -/
noncomputable def Spec.hotWeights (N : ℕ) : Fin (N + N) → ℝ := Fin.append (fun _ => 3) (fun _ => 1)

theorem hotRows_left {N : ℕ} (a : Fin N) : hotRows N (Fin.castAdd N a) = 1 := Fin.append_left _ _ a

theorem hotRows_right {N : ℕ} (a : Fin N) : hotRows N (Fin.natAdd N a) = 0 := Fin.append_right _ _ a

theorem hotWeights_pos {N : ℕ} (j : Fin (N + N)) : 0 < hotWeights N j := by
  refine Fin.addCases (fun a => ?_) (fun a => ?_) j
  · rw [hotWeights, Fin.append_left]; norm_num
  · rw [hotWeights, Fin.append_right]; norm_num

theorem avg_hotRows {N : ℕ} (hN : 0 < N) (F : ℝ → ℝ) : avg (hotWeights N) (fun j => F (hotRows N j)) = (3 * F 1 + F 0) / 4 := by
  unfold avg
  have hN' : (N : ℝ) ≠ 0 := by positivity
  simp only [Fin.sum_univ_add, hotRows, hotWeights, Fin.append_left, Fin.append_right, Finset.sum_const, Finset.card_univ, Fintype.card_fin, nsmul_eq_mul, one_mul, mul_one]
  field_simp
  ring

/-- The squared discrepancy for the product of numbers as kernel is the squared difference of the means. -/
theorem mmdSq_product {n m : ℕ} (x : Fin n → ℝ) (w : Fin n → ℝ) (y : Fin m → ℝ) (v : Fin m → ℝ) :
    mmdSq (fun a b => a * b) x w y v = (avg w x - avg v y) ^ 2 := by
  have e : ∀ {a b : ℕ} (p : Fin a → ℝ) (q : Fin a → ℝ) (r : Fin b → ℝ) (s : Fin b → ℝ), avg p (fun i => avg r fun j => q i * s j) = avg p q * avg r s := by
    intro a b p q r s
    have h1 : ∀ i, ∑ j, r j * (q i * s j) = q i * ∑ j, r j * s j := fun i => by
      rw [Finset.mul_sum]
      exact Finset.sum_congr rfl fun j _ => by ring
    unfold avg
    simp only [h1, mul_div_assoc]
    have h2 : ∀ c, ∑ i, p i * (q i * c) = (∑ i, p i * q i) * c := fun c => by
      rw [Finset.sum_mul]
      exact Finset.sum_congr rfl fun i _ => by ring
    rw [h2]
    ring
  unfold mmdSq
  rw [e, e, e]
  ring

section
variable {U : Type} [MeasurableSpace U] {μ : Measure U} [IsProbabilityMeasure μ]

/-- The temperature term cannot be dropped: on rows with the values 1 and 0, of which the ones count three times as much, with the product as kernel and any temperature from 2 on,
the mean of the squared MMD is at least 1/64 however many points are drawn (deterministic herding is within `7 / (16 size)`, by `C48_herding_rate`). -/
theorem C73_hot_bias (N : ℕ) [NeZero (N + N)] {D : U → (Fin (N + N) → Ext ℝ) → ℤ} (hD : PivotLaw μ D) (big : ℝ) {T : ℝ} (hT : 2 ≤ T)
    (bs : PyTree (Option ℤ)) (hbs : ValidBlock bs) (size : ℕ) (hsize : 0 < size) (hle : size ≤ N + N)
    (ord : List (Fin (size + (size - size)))) (hord : ∀ t, t ∈ ord) :
    ∃ f : (Fin size → U) → Fin size → Fin (N + N),
      (∀ ω, ∃ st, herdingReduce big (fun a b : ℝ => a * b) (some (softmaxDraw (drawOf D ω) T)) false bs size ⟨hotRows N, hotWeights N⟩ none ord
        = .ok (⟨fun t => (f ω t : ℤ), fun _ => 1⟩, st)) ∧
      Integrable (fun ω => mmdSq (fun a b : ℝ => a * b) (hotRows N) (hotWeights N) (fun t => hotRows N (f ω t)) (fun _ => 1)) (Measure.pi fun _ => μ) ∧
      1 / 64 ≤ ∫ ω, mmdSq (fun a b : ℝ => a * b) (hotRows N) (hotWeights N) (fun t => hotRows N (f ω t)) (fun _ => 1) ∂(Measure.pi fun _ => μ) := by
  have hN : 0 < N := by have := NeZero.pos (N + N); omega
  have hT0 : 0 < T := by linarith
  have hs : (0 : ℝ) < size := by positivity
  have hw : ∀ j, 0 < hotWeights N j := hotWeights_pos
  obtain ⟨f, h1, P, hP, hG, h2⟩ := C73_law hD big (fun a b : ℝ => a * b) (fun a b => mul_comm a b) hT0 false bs hbs size hsize hle
    ⟨hotRows N, hotWeights N⟩ hw none (by simp) ord hord
  have hx : ∀ j, hotRows N j = 1 ∨ hotRows N j = 0 := by
    intro j
    exact Fin.addCases (fun a => Or.inl (hotRows_left a)) (fun a => Or.inr (hotRows_right a)) j
  -- the probability of a one
  have hstep : ∀ i < size, ∀ s, ∑ p, P i s p * hotRows N p ≤ 5 / 8 := by
    intro i hi s
    have hg := hG i (by omega) s
    set c := ∑ t ∈ Finset.range i, hotRows N (s t) with hc
    have hc0 : 0 ≤ c := Finset.sum_nonneg fun t _ => by rcases hx (s t) with h | h <;> rw [h] <;> norm_num
    have hp : (0 : ℝ) < (i : ℝ) + 1 := by positivity
    have hsc : ∀ j, herdingScores (fun a b : ℝ => a * b) (hotRows N) (fun j => avg (hotWeights N) fun l => hotRows N l * hotRows N j) false i s j
        = .fin (hotRows N j * (3 / 4 - c / ((i : ℝ) + 1))) := by
      intro j
      simp only [herdingScores, Bool.false_eq_true, false_and, if_false]
      rw [avg_hotRows hN fun a => a * hotRows N j, ← Finset.mul_sum]
      congr 1
      ring
    set d := 3 / 4 - c / ((i : ℝ) + 1) with hd
    have hd1 : d ≤ 3 / 4 := by
      have := div_nonneg hc0 hp.le
      linarith
    have hratio : ∀ a b : Fin N, P i s (Fin.castAdd N a) = P i s (Fin.natAdd N b) * Real.exp (d / T) := by
      intro a b
      have := hg.ratio (Fin.castAdd N a) (Fin.natAdd N b) d 0 (by
        simp only [hsc, scoreOf, hotRows_left, one_mul]) (by
        simp only [hsc, scoreOf, hotRows_right, zero_mul])
      rwa [sub_zero] at this
    have hexp : Real.exp (d / T) ≤ 8 / 5 := by
      have h3 : d / T ≤ 3 / 8 := by
        rw [div_le_iff₀ hT0]
        linarith
      refine (Real.exp_le_exp.2 h3).trans ?_
      have h4 := Real.one_sub_le_exp_neg (3 / 8)
      rw [Real.exp_neg] at h4
      have h5 := inv_anti₀ (by norm_num : (0 : ℝ) < 1 - 3 / 8) h4
      rw [inv_inv] at h5
      refine h5.trans (by norm_num)
    have htot := hg.total
    rw [Fin.sum_univ_add] at htot ⊢
    simp only [hotRows_left, hotRows_right, mul_one, mul_zero, Finset.sum_const_zero, add_zero]
    have hle' : ∑ a : Fin N, P i s (Fin.castAdd N a) ≤ ∑ a : Fin N, P i s (Fin.natAdd N a) * (8 / 5) :=
      Finset.sum_le_sum fun a _ => by
        rw [hratio a a]
        exact mul_le_mul_of_nonneg_left hexp (hg.nonneg _)
    rw [← Finset.sum_mul] at hle'
    linarith
  have hcausal : Path.Causal (fun i s => ∑ t ∈ Finset.range i, hotRows N (s t)) := by
    intro i s s' h
    exact Finset.sum_congr rfl fun t ht => by rw [h t (Finset.mem_range.1 ht)]
  have hmean := Path.mean_le hP hcausal (N := size) (fun i hi s p => (hG i (by omega) s).nonneg p)
    (fun i hi s => (hG i (by omega) s).total) (fun _ => 5 / 8) (fun i hi s _ => by
      have e : ∀ p, ∑ t ∈ Finset.range (i + 1), hotRows N (Function.update s i p t) = ∑ t ∈ Finset.range i, hotRows N (s t) + hotRows N p := by
        intro p
        rw [Finset.sum_range_succ, Function.update_self]
        congr 1
        exact Finset.sum_congr rfl fun t ht => by rw [Function.update_of_ne (by have := Finset.mem_range.1 ht; omega)]
      simp only [e, mul_add, Finset.sum_add_distrib, ← Finset.sum_mul, (hG i (by omega) s).total, one_mul]
      have := hstep i hi s
      linarith) le_rfl
  rw [Finset.range_zero, Finset.sum_empty, zero_add, Finset.sum_const, Finset.card_range, nsmul_eq_mul] at hmean
  have hmm : ∀ ω, mmdSq (fun a b : ℝ => a * b) (hotRows N) (hotWeights N) (fun t => hotRows N (f ω t)) (fun _ => 1)
      = (3 / 4 - (∑ t ∈ Finset.range size, hotRows N (extend (f ω) t)) / size) ^ 2 := by
    intro ω
    rw [mmdSq_product]
    congr 2
    · have := avg_hotRows hN fun a => a
      rw [this]; norm_num
    · unfold avg
      rw [Finset.sum_range]
      simp [extend]
  have hI := h2 fun s => (3 / 4 - (∑ t ∈ Finset.range size, hotRows N (s t)) / size) ^ 2
  have hJ := h2 fun s => ∑ t ∈ Finset.range size, hotRows N (s t)
  refine ⟨f, h1, ?_, ?_⟩
  · simp only [hmm]
    exact hI.1
  · simp only [hmm]
    have hlow : ∫ ω, (1 / 4 * (3 / 4 - (∑ t ∈ Finset.range size, hotRows N (extend (f ω) t)) / size) - 1 / 64) ∂(Measure.pi fun _ => μ)
        ≤ ∫ ω, (3 / 4 - (∑ t ∈ Finset.range size, hotRows N (extend (f ω) t)) / size) ^ 2 ∂(Measure.pi fun _ => μ) := by
      have i1 : Integrable (fun ω => 3 / 4 - (∑ t ∈ Finset.range size, hotRows N (extend (f ω) t)) / size) (Measure.pi fun _ => μ) :=
        (integrable_const _).sub (hJ.1.div_const _)
      refine integral_mono ((i1.const_mul _).sub (integrable_const _)) hI.1 fun ω => ?_
      simp only
      nlinarith [sq_nonneg (3 / 4 - (∑ t ∈ Finset.range size, hotRows N (extend (f ω) t)) / size - 1 / 8)]
    refine le_trans ?_ hlow
    have i0 : Integrable (fun ω => (∑ t ∈ Finset.range size, hotRows N (extend (f ω) t)) / size) (Measure.pi fun _ => μ) := hJ.1.div_const _
    have i1 : Integrable (fun ω => 3 / 4 - (∑ t ∈ Finset.range size, hotRows N (extend (f ω) t)) / size) (Measure.pi fun _ => μ) := (integrable_const _).sub i0
    have e0 : ∫ ω, (∑ t ∈ Finset.range size, hotRows N (extend (f ω) t)) / size ∂(Measure.pi fun _ => μ)
        = Path.mean P (fun s => ∑ t ∈ Finset.range size, hotRows N (s t)) size / size := by rw [integral_div, hJ.2]
    rw [integral_sub (i1.const_mul _) (integrable_const _), integral_const_mul, integral_sub (integrable_const _) i0, e0]
    simp only [integral_const, probReal_univ, one_smul]
    have h6 : Path.mean P (fun s => ∑ t ∈ Finset.range size, hotRows N (s t)) size / size ≤ 5 / 8 := by
      rw [div_le_iff₀ hs]
      linarith
    linarith

end

/-! ### Cases -/

/-- Three points on the line with unequal weights: the hypotheses can be met. -/
example := C73_expected_rate (pivotLaw_inverse (n := 3)) 1000 (fun a b : ℝ => a * b) (fun a b => mul_comm a b) (T := 1 / 2) (by norm_num) (.leaf none) (.inl rfl) 2
  (by norm_num) (by norm_num) ⟨![0, 1, 2], ![1, 2, 3]⟩ (by intro j; fin_cases j <;> simp) none (by simp) [0, 1] (by decide) 4 (by intro j; fin_cases j <;> norm_num)

example := C73_equal_weights (pivotLaw_inverse (n := 3)) 1000 (fun a b : ℝ => a * b) (fun a b => mul_comm a b) (T := 7) (by norm_num) (.leaf none) (.inl rfl) 2
  (by norm_num) (by norm_num) ⟨![0, 1, 2], fun _ => 2⟩ (u := 2) two_pos (fun _ => rfl) none (by simp) [0, 1] (by decide) 4 (by intro j; fin_cases j <;> norm_num)

example := C73_expected_rate_unique (pivotLaw_inverse (n := 3)) 1000 (fun a b : ℝ => a * b) (isPSD_rankOne fun x : ℝ => x) (T := 1 / 100) (by norm_num) (.leaf none) (.inl rfl) 2
  (by norm_num) (by norm_num) ⟨![0, 1, 2], fun _ => 1⟩ one_pos (fun _ => rfl) none (by simp) [0, 1] (by decide) 4 (by intro j; fin_cases j <;> norm_num)

example := C73_hot_bias 2 (pivotLaw_inverse (n := 2 + 2)) 1000 (T := 2) le_rfl (.leaf none) (.inl rfl) 3 (by norm_num) (by norm_num) [0, 1, 2] (by decide)

example := C73_run 1000 (fun a b : ℝ => a * b) (fun a b => mul_comm a b) (softmaxDraw firstPositive 1) true (.leaf none) (.inl rfl) 2 (by norm_num) (by norm_num)
  (⟨![0, 1, 2], ![1, 2, 3]⟩ : Data 3 ℝ ℝ) (C47_draw_contract firstPositive firstPositive_contract one_pos _ (by intro j; fin_cases j <;> simp)) none (by simp) [0, 1] (by decide)

example := C73_law (pivotLaw_inverse (n := 3)) 1000 (fun a b : ℝ => a * b) (fun a b => mul_comm a b) (T := 1 / 2) (by norm_num) true (.leaf none) (.inl rfl) 2
  (by norm_num) (by norm_num) ⟨![0, 1, 2], ![1, 2, 3]⟩ (by intro j; fin_cases j <;> simp) none (by simp) [0, 1] (by decide)

example := C73_skew_bounds (w := ![1, 2, 3]) (by intro j; fin_cases j <;> simp)

/-- The scores of a run in progress. -/
example : IsGibbs (fun j => scoreOf (herdingScores (fun a b : ℝ => a * b) ![0, 1, 2] ![0, 1, 2] true 1 (fun _ => 2) j)) 3
    (herdingLaw (volume.restrict (Set.Ioc (0 : ℝ) 1)) inverseDraw (fun a b : ℝ => a * b) ![0, 1, 2] ![0, 1, 2] true 3 1 fun _ => 2) :=
  herdingLaw_gibbs (pivotLaw_inverse (n := 3)) _ _ _ true (by norm_num) (by norm_num) _

end Coreax
