import Verif.Props.Herding

/-!
# C12, C41: herding and the maximum mean discrepancy

For a kernel that is constant on the diagonal (as the squared exponential, Laplacian, Matérn, rational quadratic, PCIMQ and
periodic kernels are) a herding step minimises the MMD, and refinement never increases it.
-/

set_option linter.unusedSectionVars false

namespace Coreax

open Greedy Spec

variable {X K : Type*} [Zero X] [Field K] [LinearOrder K] [IsStrictOrderedRing K]
variable {n : ℕ} [NeZero n] {m : ℕ}

theorem Greedy.sum_update {T : ℕ} (y : Fin T → X) (i : Fin T) (a : X) (F : X → K) :
    ∑ t, F (Function.update y i a t) = F a + ∑ t ∈ Finset.univ.erase i, F (y t) := by
  rw [← Finset.add_sum_erase _ _ (Finset.mem_univ i), Function.update_self]
  congr 1
  refine Finset.sum_congr rfl (fun t ht => ?_)
  rw [Function.update_of_ne (Finset.mem_erase.1 ht).1]

/-- How the squared MMD of an unweighted coreset depends on one of its points. -/
theorem Greedy.mmdSq_update (k : X → X → K) (hk : ∀ a b, k a b = k b a) {N T : ℕ} (x : Fin N → X)
    (w : Fin N → K) (y : Fin T → X) (i : Fin T) :
    ∃ C, ∀ a, mmdSq k x w (Function.update y i a) (fun _ => 1)
      = C - 2 / (T : K) * (avg w (fun l => k (x l) a) - (∑ t ∈ Finset.univ.erase i, k a (y t)) / (T : K))
        + k a a / (T : K) ^ 2 := by
  have hT : (T : K) ≠ 0 := by have := i.pos; positivity
  refine ⟨avg w (fun i => avg w fun j => k (x i) (x j))
    - 2 / (T : K) * (avg w fun l => ∑ t ∈ Finset.univ.erase i, k (x l) (y t))
    + (∑ t ∈ Finset.univ.erase i, ∑ s ∈ Finset.univ.erase i, k (y t) (y s)) / (T : K) ^ 2, fun a => ?_⟩
  unfold mmdSq
  have h1 : ∀ l, avg (fun _ : Fin T => (1 : K)) (fun t => k (x l) (Function.update y i a t))
      = (k (x l) a + ∑ t ∈ Finset.univ.erase i, k (x l) (y t)) / T := by
    intro l
    rw [avg]
    simp only [one_mul, Finset.sum_const, Finset.card_univ, Fintype.card_fin, nsmul_eq_mul, mul_one]
    rw [Greedy.sum_update y i a (fun b => k (x l) b)]
  have h2 : avg (fun _ : Fin T => (1 : K)) (fun t => avg (fun _ : Fin T => (1 : K))
      (fun s => k (Function.update y i a t) (Function.update y i a s)))
      = (k a a + 2 * ∑ t ∈ Finset.univ.erase i, k a (y t) +
        ∑ t ∈ Finset.univ.erase i, ∑ s ∈ Finset.univ.erase i, k (y t) (y s)) / (T : K) ^ 2 := by
    simp only [avg, one_mul, Finset.sum_const, Finset.card_univ, Fintype.card_fin, nsmul_eq_mul, mul_one]
    rw [← Finset.sum_div, div_div, ← pow_two]
    congr 1
    have : ∀ b, ∑ s, k b (Function.update y i a s) = k b a + ∑ t ∈ Finset.univ.erase i, k b (y t) :=
      fun b => Greedy.sum_update y i a (fun c => k b c)
    simp only [this]
    rw [Greedy.sum_update y i a (fun b => k b a + ∑ t ∈ Finset.univ.erase i, k b (y t)), Finset.sum_add_distrib]
    have e : ∑ t ∈ Finset.univ.erase i, k (y t) a = ∑ t ∈ Finset.univ.erase i, k a (y t) :=
      Finset.sum_congr rfl (fun t _ => hk _ _)
    rw [e]
    ring
  have h3 : avg w (fun l => (k (x l) a + ∑ t ∈ Finset.univ.erase i, k (x l) (y t)) / (T : K))
      = (avg w (fun l => k (x l) a) + avg w fun l => ∑ t ∈ Finset.univ.erase i, k (x l) (y t)) / T := by
    have e : ∑ l, w l * ((k (x l) a + ∑ t ∈ Finset.univ.erase i, k (x l) (y t)) / (T : K))
        = (∑ l, w l * k (x l) a + ∑ l, w l * ∑ t ∈ Finset.univ.erase i, k (x l) (y t)) / (T : K) := by
      rw [← Finset.sum_add_distrib, Finset.sum_div]
      exact Finset.sum_congr rfl (fun l _ => by ring)
    simp only [avg]
    rw [e]
    ring
  rw [h2]
  simp only [h1]
  rw [h3]
  field_simp
  ring

/-- Larger herding score, smaller MMD (constant diagonal). -/
theorem Greedy.mmdSq_le_of_score (k : X → X → K) (hk : ∀ a b, k a b = k b a) {N T : ℕ} (x : Fin N → X)
    (w : Fin N → K) (y : Fin T → X) (i : Fin T) (a b : X) (hd : k a a = k b b)
    (h : avg w (fun l => k (x l) b) - (∑ t ∈ Finset.univ.erase i, k b (y t)) / (T : K)
      ≤ avg w (fun l => k (x l) a) - (∑ t ∈ Finset.univ.erase i, k a (y t)) / (T : K)) :
    mmdSq k x w (Function.update y i a) (fun _ => 1) ≤ mmdSq k x w (Function.update y i b) (fun _ => 1) := by
  obtain ⟨C, hC⟩ := Greedy.mmdSq_update k hk x w y i
  rw [hC a, hC b, hd]
  have hT : 0 < (T : K) := by have := i.pos; positivity
  have : 2 / (T : K) * (avg w (fun l => k (x l) b) - (∑ t ∈ Finset.univ.erase i, k b (y t)) / (T : K))
      ≤ 2 / (T : K) * (avg w (fun l => k (x l) a) - (∑ t ∈ Finset.univ.erase i, k a (y t)) / (T : K)) :=
    mul_le_mul_of_nonneg_left h (by positivity)
  linarith

/-- The first `i` points of the coreset `f`, followed by the point `j`. -/
def Spec.extend {size : ℕ} (x : Fin n → X) (f : Fin size → Fin n) (i : Fin size) (j : Fin n) : Fin (i + 1) → X :=
  fun t => if h : (t : ℕ) < i then x (f ⟨t, h.trans i.2⟩) else x j

/-- Each step of a herding run minimises the MMD between the data and the coreset built so far, among all points that
may be chosen. -/
theorem C12_step_minimises_mmd (k : X → X → K) (hk : ∀ a b, k a b = k b a) (x : Fin n → X) (w : Fin n → K)
    (hdiag : ∀ i j, k (x i) (x i) = k (x j) (x j)) (unique : Bool) {size : ℕ} (f : Fin size → Fin n)
    (h : HerdingReduce k x w unique f) (i : Fin size) (j : Fin n) (hj : 0 < w j)
    (hju : unique = true → ∀ t, t < i → f t ≠ j) :
    mmdSq k x w (Spec.extend x f i (f i)) (fun _ => 1) ≤ mmdSq k x w (Spec.extend x f i j) (fun _ => 1) := by
  have hle := (h i).2.1 j ⟨hj, hju⟩
  have hext : ∀ l, Spec.extend x f i l = Function.update (Spec.extend x f i j) (Fin.last i) (x l) := by
    intro l
    funext t
    by_cases ht : t = Fin.last i
    · subst ht; simp [Spec.extend]
    · rw [Function.update_of_ne ht]
      have : (t : ℕ) < i := by
        have h1 := t.2
        have h2 : (t : ℕ) ≠ i := fun hh => ht (Fin.ext hh)
        omega
      simp [Spec.extend, this]
  have hsum : ∀ l : Fin n, (∑ t ∈ Finset.univ.erase (Fin.last (i : ℕ)), k (x l) (Spec.extend x f i j t))
      = ∑ t, if t < i then k (x l) (x (f t)) else 0 := by
    intro l
    have e1 : (∑ t ∈ Finset.univ.erase (Fin.last (i : ℕ)), k (x l) (Spec.extend x f i j t))
        = ∑ t : Fin i, k (x l) (x (f ⟨t, t.2.trans i.2⟩)) := by
      have := Fin.sum_univ_castSucc (fun t : Fin (i + 1) => k (x l) (Spec.extend x f i j t))
      rw [← Finset.sum_erase_add _ _ (Finset.mem_univ (Fin.last (i : ℕ)))] at this
      rw [add_right_cancel this]
      refine Finset.sum_congr rfl (fun t _ => ?_)
      simp [Spec.extend]
    rw [e1, sum_castLE i.2.le]
    · refine Finset.sum_congr rfl (fun t _ => ?_)
      rw [if_pos (by rw [Fin.lt_def]; exact t.2)]
      rfl
    · intro t ht
      rw [if_neg (by rw [Fin.lt_def]; omega)]
  rw [hext (f i)]
  conv_rhs => rw [hext j]
  refine Greedy.mmdSq_le_of_score k hk x w (Spec.extend x f i j) (Fin.last i) _ _ (hdiag _ _) ?_
  rw [hsum, hsum]
  have e : ((((i : ℕ) + 1 : ℕ) : K)) = ((i : ℕ) : K) + 1 := by push_cast; rfl
  rw [e]
  exact hle

example : mmdSq (fun a b : ℚ => if a = b then (1 : ℚ) else 0) ![0, 1, 3] ![1, 2, 1] (Spec.extend ![0, 1, 3] (![1, 0] : Fin 2 → Fin 3) 1 0) (fun _ => 1) ≤
    mmdSq (fun a b : ℚ => if a = b then (1 : ℚ) else 0) ![0, 1, 3] ![1, 2, 1] (Spec.extend ![0, 1, 3] (![1, 0] : Fin 2 → Fin 3) 1 1) (fun _ => 1) := by
  refine C12_step_minimises_mmd (fun a b : ℚ => if a = b then (1 : ℚ) else 0) (fun a b => by simp only [eq_comm]) ![0, 1, 3] ![1, 2, 1] (fun _ _ => by simp) false ![1, 0] ?_ 1 1 (by decide +kernel) (by simp)
  unfold HerdingReduce IsFirstMax
  simp only [Bool.false_eq_true, false_imp_iff, and_true]
  decide +kernel

/-- The coreset after the first `i` replacements. -/
def Spec.hybrid (x : Fin n → X) (c f : Fin m → Fin n) (i : ℕ) : Fin m → X :=
  fun t => if (t : ℕ) < i then x (f t) else x (c t)

/-- Refinement never increases the MMD: neither from one replacement to the next, nor overall. -/
theorem C41_refine_mmd_descent (k : X → X → K) (hk : ∀ a b, k a b = k b a) (x : Fin n → X) (w : Fin n → K)
    (hdiag : ∀ i j, k (x i) (x i) = k (x j) (x j)) (unique : Bool) (c f : Fin m → Fin n) (u : K) (hu : 0 < u)
    (hcpos : ∀ t, 0 < w (c t)) (hinj : unique = true → Function.Injective c)
    (h : HerdingRun k x w unique c (fun _ => u) f) :
    (∀ i : ℕ, i < m → mmdSq k x w (Spec.hybrid x c f (i + 1)) (fun _ => 1)
      ≤ mmdSq k x w (Spec.hybrid x c f i) (fun _ => 1)) ∧
    mmdSq k x w (fun t => x (f t)) (fun _ => 1) ≤ mmdSq k x w (fun t => x (c t)) (fun _ => 1) := by
  have hstep : ∀ i : ℕ, i < m → mmdSq k x w (Spec.hybrid x c f (i + 1)) (fun _ => 1)
      ≤ mmdSq k x w (Spec.hybrid x c f i) (fun _ => 1) := by
    intro i hi
    set i' : Fin m := ⟨i, hi⟩ with hi'
    -- the old point may be kept
    have hallow : Allowed w unique c (fun _ => u) f i' (c i') := by
      refine ⟨hcpos _, fun hun => ⟨fun t ht heq => ?_, fun t _ _ _ => ⟨hi, rfl⟩⟩⟩
      obtain ⟨htm, hct⟩ := ((h t).1.2 hun).2 i' ht hu heq.symm
      have := hinj hun (hct.trans heq)
      exact absurd this (by intro hh; rw [← hh] at ht; exact lt_irrefl _ ht)
    have hle := (h i').2.1 _ hallow
    have hnew : Spec.hybrid x c f (i + 1) = Function.update (Spec.hybrid x c f i) i' (x (f i')) := by
      funext t
      by_cases ht : t = i'
      · subst ht; simp [Spec.hybrid, hi']
      · rw [Function.update_of_ne ht]
        have : ((t : ℕ) < i + 1) ↔ (t : ℕ) < i := by
          have : (t : ℕ) ≠ i := fun hh => ht (Fin.ext hh)
          omega
        simp [Spec.hybrid, this]
    have hold : Spec.hybrid x c f i = Function.update (Spec.hybrid x c f i) i' (x (c i')) := by
      funext t
      by_cases ht : t = i'
      · subst ht; simp [Spec.hybrid, hi']
      · rw [Function.update_of_ne ht]
    have hsum : ∀ l, (∑ t ∈ Finset.univ.erase i', k (x l) (Spec.hybrid x c f i t))
        = otherSum k x c (fun _ => u) f i' l := by
      intro l
      unfold otherSum
      rw [← Finset.sum_add_distrib, ← Finset.add_sum_erase _ _ (Finset.mem_univ i')]
      simp only [lt_irrefl, false_and, if_false, add_zero, zero_add]
      refine Finset.sum_congr rfl (fun t ht => ?_)
      have hti : (t : ℕ) ≠ i := fun hh => (Finset.mem_erase.1 ht).1 (Fin.ext hh)
      unfold Spec.hybrid
      rcases lt_or_gt_of_ne hti with h1 | h1
      · have h2 : t < i' := h1
        have h3 : ¬ (i' : ℕ) < t := by simp only [hi']; omega
        simp [h1, h2, h3]
      · have h2 : ¬ t < i' := by rw [Fin.lt_def]; simp only [hi']; omega
        have h3 : (i' : ℕ) < t := h1
        have h4 : ¬ (t : ℕ) < i := by omega
        simp [h2, h3, h4, hu]
    have hcount : otherCount (fun _ : Fin m => u) i' + 1 = m := by
      unfold otherCount
      have : (Finset.univ.filter (fun t : Fin m => (i' : ℕ) < t ∧ 0 < u)) = Finset.Ioi i' := by
        ext t; simp [hu]
      rw [this, Fin.card_Ioi]
      simp only [hi']
      omega
    rw [hcount] at hle
    rw [hnew]
    conv_rhs => rw [hold]
    refine Greedy.mmdSq_le_of_score k hk x w _ _ _ _ (hdiag _ _) ?_
    rw [hsum, hsum]
    exact hle
  refine ⟨hstep, ?_⟩
  have hall : ∀ i : ℕ, i ≤ m → mmdSq k x w (Spec.hybrid x c f i) (fun _ => 1)
      ≤ mmdSq k x w (fun t => x (c t)) (fun _ => 1) := by
    intro i
    induction i with
    | zero => intro _; exact le_of_eq (by unfold Spec.hybrid; simp)
    | succ i ih => intro hi; exact (hstep i (by omega)).trans (ih (by omega))
  have e : Spec.hybrid x c f m = fun t => x (f t) := by
    funext t; simp [Spec.hybrid, t.2]
  rw [← e]
  exact hall m le_rfl

/-- Points 2 and 0 refined to points 1 and 0. -/
example : mmdSq (fun a b : ℚ => if a = b then (1 : ℚ) else 0) ![0, 1, 3] ![1, 2, 1] (fun t => ![0, 1, 3] ((![1, 0] : Fin 2 → Fin 3) t)) (fun _ => 1) ≤
    mmdSq (fun a b : ℚ => if a = b then (1 : ℚ) else 0) ![0, 1, 3] ![1, 2, 1] (fun t => ![0, 1, 3] ((![2, 0] : Fin 2 → Fin 3) t)) (fun _ => 1) := by
  refine (C41_refine_mmd_descent (fun a b : ℚ => if a = b then (1 : ℚ) else 0) (fun a b => by simp only [eq_comm]) ![0, 1, 3] ![1, 2, 1] (fun _ _ => by simp) false ![2, 0] ![1, 0] 3 (by norm_num) (by decide +kernel) (by simp) ?_).2
  unfold HerdingRun IsFirstMax Spec.Allowed
  simp only [Bool.false_eq_true, false_imp_iff, and_true]
  decide +kernel

end Coreax
