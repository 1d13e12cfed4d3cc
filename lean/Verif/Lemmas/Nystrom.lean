import Verif.Lemmas.RPC
import Mathlib.LinearAlgebra.Span.Basic
import Mathlib.Tactic.Module

/-!
# The Nyström approximation computed by partial Cholesky decomposition
-/

namespace Coreax

open Spec Ext

variable {n : ℕ}

theorem quad_expand (R : Fin n → Fin n → ℝ) (c : Fin n → ℝ) (p : Fin n) (a : ℝ) (hs : ∀ i j, R i j = R j i) :
    ∑ i, ∑ j, (c i - a * if i = p then 1 else 0) * (c j - a * if j = p then 1 else 0) * R i j =
      (∑ i, ∑ j, c i * c j * R i j) - 2 * a * (∑ j, c j * R p j) + a * a * R p p := by
  have h1 : ∀ i j, (c i - a * if i = p then 1 else 0) * (c j - a * if j = p then 1 else 0) * R i j =
      c i * c j * R i j - (if j = p then a * (c i * R i p) else 0) - (if i = p then a * (c j * R p j) else 0) +
        (if i = p then (if j = p then a * a * R p p else 0) else 0) := by
    intro i j
    by_cases hi : i = p <;> by_cases hj : j = p
    · subst hi; subst hj; simp; ring
    · subst hi; simp [hj]; ring
    · subst hj; simp [hi]; ring
    · simp [hi, hj]
  simp only [h1, Finset.sum_add_distrib, Finset.sum_sub_distrib]
  have e1 : ∑ i, ∑ j, (if j = p then a * (c i * R i p) else 0) = a * ∑ j, c j * R p j := by
    simp only [Finset.sum_ite_eq', Finset.mem_univ, if_true, Finset.mul_sum]
    exact Finset.sum_congr rfl fun i _ => by rw [hs i p]
  have e2 : ∑ i, ∑ j, (if i = p then a * (c j * R p j) else 0) = a * ∑ j, c j * R p j := by
    rw [Finset.sum_comm]
    simp only [Finset.sum_ite_eq', Finset.mem_univ, if_true, Finset.mul_sum]
  have e3 : ∑ i, ∑ j, (if i = p then (if j = p then a * a * R p p else 0) else 0) = a * a * R p p := by
    rw [Finset.sum_comm]
    simp only [Finset.sum_ite_eq', Finset.mem_univ, if_true]
  rw [e1, e2, e3]
  ring

/-- The Schur complement of a positive pivot is positive semi-definite. -/
theorem NonnegForm.schur {R : Fin n → Fin n → ℝ} (hR : NonnegForm R) (hs : ∀ i j, R i j = R j i) {p : Fin n}
    (hp : 0 < R p p) : NonnegForm (fun i j => R i j - R i p * R j p / R p p) := by
  intro c
  have h := hR (fun i => c i - (∑ j, c j * R p j) / R p p * if i = p then 1 else 0)
  rw [quad_expand R c p _ hs] at h
  have e : ∑ i, ∑ j, c i * c j * (R i j - R i p * R j p / R p p) =
      (∑ i, ∑ j, c i * c j * R i j) - (∑ j, c j * R p j) * (∑ j, c j * R p j) / R p p := by
    have e1 : ∀ i j, c i * c j * (R i j - R i p * R j p / R p p) =
        c i * c j * R i j - (c i * R p i) * (c j * R p j) / R p p := by
      intro i j; rw [hs i p, hs j p]; ring
    simp only [e1, Finset.sum_sub_distrib]
    rw [Finset.sum_mul_sum, Finset.sum_div]
    simp only [Finset.sum_div]
  rw [e]
  have e2 : (∑ i, ∑ j, c i * c j * R i j) - 2 * ((∑ j, c j * R p j) / R p p) * (∑ j, c j * R p j) +
      (∑ j, c j * R p j) / R p p * ((∑ j, c j * R p j) / R p p) * R p p =
      (∑ i, ∑ j, c i * c j * R i j) - (∑ j, c j * R p j) * (∑ j, c j * R p j) / R p p := by
    field_simp
    ring
  rwa [e2] at h

/-- The diagonal of a positive semi-definite matrix. -/
theorem NonnegForm.diag {R : Fin n → Fin n → ℝ} (hR : NonnegForm R) (p : Fin n) : 0 ≤ R p p := by
  have := hR (fun i => if i = p then 1 else 0)
  simpa using this

/-- A positive semi-definite matrix with zero diagonal entry has a zero row there. -/
theorem NonnegForm.row_zero {R : Fin n → Fin n → ℝ} (hR : NonnegForm R) (hs : ∀ i j, R i j = R j i) {p : Fin n}
    (hp : R p p = 0) (q : Fin n) : R p q = 0 := by
  by_contra hne
  have h := hR (fun i => (if i = q then 1 else 0) - (R q q + 1) / R p q * if i = p then 1 else 0)
  rw [quad_expand R (fun i => if i = q then 1 else 0) p _ hs, hp] at h
  simp only [ite_mul, one_mul, zero_mul, Finset.sum_ite_eq', Finset.mem_univ, if_true, mul_ite, mul_one, mul_zero,
    add_zero] at h
  have : 2 * ((R q q + 1) / R p q) * R p q = 2 * (R q q + 1) := by field_simp
  have h0 := NonnegForm.diag hR q
  linarith

/-- Nyström approximations are unique. -/
theorem isNystrom_unique {G : Fin n → Fin n → ℝ} (hG : NonnegForm G) (hs : ∀ i j, G i j = G j i) {S : Set (Fin n)}
    {A B : Fin n → Fin n → ℝ} (hA : IsNystrom G S A) (hB : IsNystrom G S B) : A = B := by
  -- a vector in the span of the selected columns that vanishes on `S` is zero
  have key : ∀ v ∈ columnSpan G S, (∀ s ∈ S, v s = 0) → v = 0 := by
    intro v hv h0
    have hrep : ∃ c : Fin n → ℝ, (∀ l, l ∉ S → c l = 0) ∧ ∀ l, v l = ∑ m, G l m * c m := by
      clear h0
      induction hv using Submodule.span_induction with
      | mem v hv =>
        obtain ⟨s, hs, rfl⟩ := hv
        refine ⟨fun m => if m = s then 1 else 0, fun l hl => if_neg (by rintro rfl; exact hl hs), fun l => by simp⟩
      | zero => exact ⟨0, fun _ _ => rfl, fun l => by simp⟩
      | add v w _ _ h1 h2 =>
        obtain ⟨c, hc, hv⟩ := h1
        obtain ⟨d, hd, hw⟩ := h2
        refine ⟨c + d, fun l hl => by simp [hc l hl, hd l hl], fun l => ?_⟩
        simp only [Pi.add_apply, hv, hw, mul_add, Finset.sum_add_distrib]
      | smul a v _ h1 =>
        obtain ⟨c, hc, hv⟩ := h1
        refine ⟨a • c, fun l hl => by simp [hc l hl], fun l => ?_⟩
        simp only [Pi.smul_apply, smul_eq_mul, hv, Finset.mul_sum]
        exact Finset.sum_congr rfl fun m _ => by ring
    obtain ⟨c, hc, hv⟩ := hrep
    have hq : ∑ i, ∑ j, c i * c j * G i j = 0 := by
      apply Finset.sum_eq_zero
      intro i _
      by_cases hi : i ∈ S
      · have : ∑ j, c i * c j * G i j = c i * v i := by
          rw [hv i, Finset.mul_sum]; exact Finset.sum_congr rfl fun m _ => by ring
        rw [this, h0 i hi, mul_zero]
      · simp [hc i hi]
    funext q
    rw [hv q, Pi.zero_apply]
    -- the form is minimal at `c`
    by_contra hne
    set b := ∑ m, G q m * c m with hb
    have hsum : ∑ j, c j * G q j = b := by rw [hb]; exact Finset.sum_congr rfl fun m _ => by ring
    have h := hG (fun i => c i - b / (G q q + 1) * if i = q then 1 else 0)
    rw [quad_expand G c q _ hs, hq, hsum] at h
    have h0 := NonnegForm.diag hG q
    have e : (0 : ℝ) - 2 * (b / (G q q + 1)) * b + b / (G q q + 1) * (b / (G q q + 1)) * G q q =
        -(b * b) * (G q q + 2) / ((G q q + 1) * (G q q + 1)) := by
      field_simp
      ring
    rw [e] at h
    have hbb : 0 < b * b := mul_self_pos.2 hne
    have : -(b * b) * (G q q + 2) / ((G q q + 1) * (G q q + 1)) < 0 := by
      apply div_neg_of_neg_of_pos
      · nlinarith
      · positivity
    linarith
  funext l j
  have hsub : (fun l => A l j - B l j) ∈ columnSpan G S := Submodule.sub_mem _ (hA.span j) (hB.span j)
  have := key _ hsub (fun s hs => by simp only [hA.exact s hs, hB.exact s hs, sub_self])
  have := congrFun this l
  simpa [sub_eq_zero] using this

theorem columnSpan_mono {G : Fin n → Fin n → ℝ} {S T : Set (Fin n)} (h : S ⊆ T) : columnSpan G S ≤ columnSpan G T :=
  Submodule.span_mono (Set.image_mono h)

section
variable {X : Type*} [NeZero n] {size : ℕ}

/-- The points selected in the first `i` steps. -/
def selected (idx : Fin size → ℤ) (i : ℕ) : Set (Fin n) := {j | ∃ t : Fin size, (t : ℕ) < i ∧ idx t = (j : ℤ)}

/-- The Gram matrix is made of the selected columns only. -/
def Exhausted (G : Fin n → Fin n → ℝ) (idx : Fin size → ℤ) (i : ℕ) : Prop :=
  ∀ j, (fun l => G l j) ∈ columnSpan G (selected idx i)

/-- The invariant of an uncollapsed run. -/
def Partial (G : Fin n → Fin n → ℝ) (i : ℕ) (s : RPCState n size ℝ) : Prop :=
  ∃ F : Fin n → Fin size → ℝ, (∀ j t, s.approx j t = fin (F j t)) ∧ (∀ (j : Fin n) (t : Fin size), i ≤ (t : ℕ) → F j t = 0) ∧
    (∀ j, s.residual j = fin (G j j - ∑ t, F j t * F j t)) ∧
    NonnegForm (fun j l => G j l - ∑ t, F j t * F l t) ∧
    (∀ s' ∈ (selected s.idx i : Set (Fin n)), ∀ l, ∑ t, F s' t * F l t = G s' l) ∧
    ∀ t, (fun l => F l t) ∈ columnSpan G (selected s.idx i)

theorem rootPos_sqrt : RootPos Real.sqrt := ⟨Real.sqrt_zero, fun _ h => Real.sqrt_pos.2 h⟩

theorem partial_step {k : X → X → ℝ} {x : Fin n → X} (hsym : ∀ a b, k a b = k b a) {unique : Bool}
    {draw : PivotDraw n ℝ} {i : Fin size} {s : RPCState n size ℝ} {p : Fin n} (hp : draw i (validResiduals s) = p)
    (h : Partial (fun j l => k (x j) (x l)) i s) (hpos : ∃ v, 0 < v ∧ s.residual p = fin v) :
    Partial (fun j l => k (x j) (x l)) (i + 1) (rpcBody Real.sqrt k x unique draw i s) := by
  obtain ⟨F, hF, hz, hr, hpsd, hex, hspan⟩ := h
  obtain ⟨v, hv, hpv⟩ := hpos
  rw [hr p] at hpv
  have hg : 0 < k (x p) (x p) - ∑ t, F p t * F p t := by
    have : k (x p) (x p) - ∑ t, F p t * F p t = v := by simpa using hpv
    rw [this]; exact hv
  obtain ⟨hA, hres⟩ := live_step rootPos_sqrt (unique := unique) hp hF hr hg
  have hRs : ∀ i j, k (x i) (x j) - ∑ t, F i t * F j t = k (x j) (x i) - ∑ t, F j t * F i t := by
    intro i j; rw [hsym (x i) (x j)]; congr 1; exact Finset.sum_congr rfl fun t _ => mul_comm _ _
  set R : Fin n → Fin n → ℝ := fun i j => k (x i) (x j) - ∑ t, F i t * F j t with hR
  set c : Fin n → ℝ := fun j => R j p / Real.sqrt (R p p) with hc
  have hg' : 0 < R p p := hg
  have hcc : ∀ j l, c j * c l = R j p * R l p / R p p := by
    intro j l
    rw [hc]
    simp only
    rw [div_mul_div_comm, Real.mul_self_sqrt hg'.le]
  have hsum : ∀ j l, ∑ t, Function.update (F j) i (c j) t * Function.update (F l) i (c l) t =
      ∑ t, F j t * F l t + c j * c l := by
    intro j l
    have h1 : ∀ t, Function.update (F j) i (c j) t * Function.update (F l) i (c l) t =
        F j t * F l t + if t = i then c j * c l else 0 := by
      intro t
      by_cases ht : t = i
      · subst ht; simp [hz j t le_rfl]
      · simp [ht]
    simp only [h1, Finset.sum_add_distrib, Finset.sum_ite_eq', Finset.mem_univ, if_true]
  have hsel : ∀ q : Fin n, q ∈ (selected (rpcBody Real.sqrt k x unique draw i s).idx (i + 1) : Set (Fin n)) ↔
      q ∈ (selected s.idx i : Set (Fin n)) ∨ q = p := by
    intro q
    have hidx := (rpcBody_eq Real.sqrt k x unique draw i s hp).1
    simp only [selected, Set.mem_setOf_eq, hidx]
    constructor
    · rintro ⟨t, ht, he⟩
      by_cases hti : t = i
      · subst hti
        rw [Function.update_self] at he
        exact Or.inr (Fin.ext (by exact_mod_cast he.symm))
      · rw [Function.update_of_ne hti] at he
        have : (t : ℕ) ≠ i := fun h => hti (Fin.ext h)
        exact Or.inl ⟨t, by omega, he⟩
    · rintro (⟨t, ht, he⟩ | rfl)
      · exact ⟨t, by omega, by rw [Function.update_of_ne (by rintro rfl; omega)]; exact he⟩
      · exact ⟨i, by omega, by rw [Function.update_self]⟩
  have hRp : ∀ s' ∈ (selected s.idx i : Set (Fin n)), ∀ l, R s' l = 0 := by
    intro s' hs' l
    rw [hR]
    simp only [hex s' hs' l, sub_self]
  have hmono := columnSpan_mono (G := fun j l => k (x j) (x l)) (S := selected s.idx i)
    (T := selected (rpcBody Real.sqrt k x unique draw i s).idx (i + 1)) (fun q hq => (hsel q).2 (Or.inl hq))
  refine ⟨fun j => Function.update (F j) i (c j), hA, ?_, ?_, ?_, ?_, ?_⟩
  · intro j t ht
    have hti : t ≠ i := by rintro rfl; omega
    change Function.update (F j) i (c j) t = 0
    rw [Function.update_of_ne hti]
    exact hz j t (by omega)
  · intro j
    rw [hres j, hsum]
    congr 1
    have hd := NonnegForm.diag (NonnegForm.schur hpsd hRs hg') j
    have hcj : k (x j) (x j) - ∑ t, F j t * F j t - c j * c j = R j j - R j p * R j p / R p p := by rw [hcc]
    split_ifs with hu
    · rw [hu.2]
      have : c p * c p = R p p := by rw [hcc]; field_simp
      rw [this, hR]; ring
    · change max 0 (k (x j) (x j) - ∑ t, F j t * F j t - c j * c j) = _
      rw [max_eq_right]
      · ring
      · rw [hcj]; exact hd
  · have hd := NonnegForm.schur hpsd hRs hg'
    intro a
    refine (hd a).trans (le_of_eq ?_)
    refine Finset.sum_congr rfl fun j _ => Finset.sum_congr rfl fun l _ => ?_
    simp only [hsum, hcc, hR]
    ring
  · intro q hq l
    rw [hsum, hcc]
    rcases (hsel q).1 hq with hq | rfl
    · rw [hex q hq l, hRp q hq p]; simp
    · have : R q q * R l q / R q q = R l q := by field_simp
      rw [this]
      change _ = k (x q) (x l)
      have := hRs l q
      simp only [hR]
      linarith
  · intro t
    by_cases ht : t = i
    · subst ht
      have hcol : (fun l => Function.update (F l) t (c l) t) =
          (Real.sqrt (R p p))⁻¹ • ((fun l => k (x l) (x p)) - ∑ u, F p u • fun l => F l u) := by
        funext l
        simp only [Function.update_self, Pi.smul_apply, Pi.sub_apply, smul_eq_mul, Finset.sum_apply, hc, hR]
        rw [div_eq_inv_mul]
        congr 2
        exact Finset.sum_congr rfl fun u _ => mul_comm _ _
      rw [hcol]
      refine Submodule.smul_mem _ _ (Submodule.sub_mem _ ?_ ?_)
      · exact Submodule.subset_span ⟨p, (hsel p).2 (Or.inr rfl), rfl⟩
      · exact Submodule.sum_mem _ fun u _ => Submodule.smul_mem _ _ (hmono (hspan u))
    · have : (fun l => Function.update (F l) i (c l) t) = fun l => F l t := by
        funext l; rw [Function.update_of_ne ht]
      rw [this]
      exact hmono (hspan t)

/-- If all residuals are zero the selected columns generate the Gram matrix. -/
theorem exhausted_of_zero {G : Fin n → Fin n → ℝ} (hsym : ∀ i j, G i j = G j i) {i : ℕ} {s : RPCState n size ℝ}
    (h : Partial G i s) (h0 : ∀ j, s.residual j = fin 0) : Exhausted G s.idx i := by
  obtain ⟨F, hF, hz, hr, hpsd, hex, hspan⟩ := h
  have hRs : ∀ i j, G i j - ∑ t, F i t * F j t = G j i - ∑ t, F j t * F i t := by
    intro i j; rw [hsym i j]; congr 1; exact Finset.sum_congr rfl fun t _ => mul_comm _ _
  have hG : ∀ l j, G l j = ∑ t, F l t * F j t := by
    intro l j
    have hd : G l l - ∑ t, F l t * F l t = 0 := by
      have := h0 l; rw [hr l] at this; simpa using this
    have := NonnegForm.row_zero hpsd hRs hd j
    linarith
  intro j
  have : (fun l => G l j) = ∑ t, F j t • fun l => F l t := by
    funext l
    rw [hG l j]
    simp only [Finset.sum_apply, Pi.smul_apply, smul_eq_mul]
    exact Finset.sum_congr rfl fun t _ => mul_comm _ _
  rw [this]
  exact Submodule.sum_mem _ fun t _ => Submodule.smul_mem _ _ (hspan t)

theorem selected_step {k : X → X → ℝ} {x : Fin n → X} {root : ℝ → ℝ} {unique : Bool}
    {draw : PivotDraw n ℝ} {i : Fin size} {s : RPCState n size ℝ} {p : Fin n} (hp : draw i (validResiduals s) = p) :
    (selected s.idx i : Set (Fin n)) ⊆ selected (rpcBody root k x unique draw i s).idx (i + 1) := by
  rintro q ⟨t, ht, he⟩
  refine ⟨t, by omega, ?_⟩
  rw [(rpcBody_eq root k x unique draw i s hp).1, Function.update_of_ne (by rintro rfl; omega)]
  exact he

end

end Coreax
