import Verif.Lemmas.GKP

/-!
# Lemmas about kernel ridge regression on selected points
-/

set_option linter.unusedSectionVars false

namespace Coreax

open Matrix Spec Ext

/-- A solver that returns the regularised least-squares solution of least norm (which `MinimalEuclideanNormSolver` does,
`C31`). -/
def ExactSolver {K : Type*} [Field K] [LinearOrder K] (solve : RlsSolver K) : Prop :=
  ∀ {n q : ℕ} (A : Matrix (Fin n) (Fin n) K) (reg : K) (B : Matrix (Fin n) (Fin q) K) (I : Matrix (Fin n) (Fin n) K),
    ∃ X : Matrix (Fin n) (Fin q) K, solve A reg B I = .ok (X.map Ext.fin) ∧ IsMinNormLstsq (A + |reg| • I) B X

theorem ExactSolver.numeric {K : Type*} [Field K] [LinearOrder K] {solve : RlsSolver K} (h : ExactSolver solve) :
    NumericSolver solve := fun A reg B I => by obtain ⟨X, hX, -⟩ := h A reg B I; exact ⟨X, hX⟩

variable {X : Type*} {n m l : ℕ}

/-- The index standing for a selected point or for padding. -/
def optIdx (s : Option (Fin n)) : ℤ := s.elim (-1) (fun j => (j : ℤ))

/-- The quadratic form of the selected points is non-negative. -/
theorem optForm_nonneg {k : X → X → ℝ} (hk : IsPSD k) (x : Fin n → X) (S : Fin m → Option (Fin n)) (v : Fin m → ℝ)
    (hv : ∀ t, S t = none → v t = 0) :
    0 ≤ ∑ t, v t * ∑ u, (S t).elim 0 (fun s => (S u).elim 0 (fun s' => k (x s) (x s') * v u)) := by
  by_cases h : ∀ t, S t = none
  · refine (Finset.sum_eq_zero fun t _ => ?_).ge
    rw [hv t (h t), zero_mul]
  · push Not at h
    obtain ⟨t0, h0⟩ := h
    obtain ⟨s0, hs0⟩ := Option.ne_none_iff_exists'.1 h0
    have := hk.2 m (fun t => x ((S t).getD s0)) v
    refine this.trans_eq (Finset.sum_congr rfl fun t _ => ?_)
    rw [Finset.mul_sum]
    refine Finset.sum_congr rfl fun u _ => ?_
    rcases ht : S t with _ | s
    · simp [hv t ht]
    · rcases hu : S u with _ | s'
      · simp [hv u hu]
      · simp; ring

/-- The coefficients of the selected points are determined. -/
theorem ridgeFit_unique {k : X → X → ℝ} (hk : IsPSD k) (x : Fin n → X) {y : Fin n → ℝ} {lam : ℝ} (hl : 0 < lam)
    {S : Fin m → Option (Fin n)} {a a' : Fin m → ℝ} (h : IsRidgeFit (fun i j => k (x i) (x j)) y lam S a)
    (h' : IsRidgeFit (fun i j => k (x i) (x j)) y lam S a') : ∀ t s, S t = some s → a t = a' t := by
  let d : Fin m → ℝ := fun t => (S t).elim 0 (fun _ => a t - a' t)
  have hd0 : ∀ t, S t = none → d t = 0 := fun t ht => by simp [d, ht]
  have hq := optForm_nonneg hk x S d hd0
  have hrow : ∀ t, ∑ u, (S t).elim 0 (fun s => (S u).elim 0 (fun s' => k (x s) (x s') * d u)) = -(lam * d t) := by
    intro t
    rcases ht : S t with _ | s
    · simp [hd0 t ht]
    · have h1 := h t s ht
      have h2 := h' t s ht
      have h3 : ∑ u, (S u).elim 0 (fun s' => k (x s) (x s') * d u) =
          ∑ u, (S u).elim 0 (fun s' => k (x s) (x s') * a u) - ∑ u, (S u).elim 0 (fun s' => k (x s) (x s') * a' u) := by
        rw [← Finset.sum_sub_distrib]
        refine Finset.sum_congr rfl fun u _ => ?_
        rcases hu : S u with _ | s'
        · simp
        · simp [d, hu]; ring
      have h4 : d t = a t - a' t := by simp [d, ht]
      simp only [Option.elim_some]
      rw [h3, h4]
      linear_combination h1 - h2
  have hsum : ∑ t, lam * (d t * d t) ≤ 0 := by
    have : ∑ t, d t * ∑ u, (S t).elim 0 (fun s => (S u).elim 0 (fun s' => k (x s) (x s') * d u)) = -∑ t, lam * (d t * d t) := by
      rw [← Finset.sum_neg_distrib]
      refine Finset.sum_congr rfl fun t _ => ?_
      rw [hrow t]; ring
    rw [this] at hq
    linarith
  intro t s hts
  have hnn : ∀ t ∈ Finset.univ, 0 ≤ lam * (d t * d t) := fun t _ => mul_nonneg hl.le (mul_self_nonneg _)
  have h0 := (Finset.sum_eq_zero_iff_of_nonneg hnn).1 (le_antisymm hsum (Finset.sum_nonneg hnn)) t (Finset.mem_univ _)
  have : d t = 0 := by
    rcases mul_eq_zero.1 h0 with h | h
    · exact absurd h hl.ne'
    · exact mul_self_eq_zero.1 h
  have h4 : d t = a t - a' t := by simp [d, hts]
  linarith

theorem ridgeError_unique {k : X → X → ℝ} (hk : IsPSD k) (x : Fin n → X) {y : Fin n → ℝ} {lam : ℝ} (hl : 0 < lam)
    {S : Fin m → Option (Fin n)} {a a' : Fin m → ℝ} (h : IsRidgeFit (fun i j => k (x i) (x j)) y lam S a)
    (h' : IsRidgeFit (fun i j => k (x i) (x j)) y lam S a') (batch : Fin l → Fin n) :
    ridgeError (fun i j => k (x i) (x j)) y S a batch = ridgeError (fun i j => k (x i) (x j)) y S a' batch := by
  unfold ridgeError
  refine Finset.sum_congr rfl fun j _ => ?_
  congr 2
  refine Finset.sum_congr rfl fun u _ => ?_
  rcases hu : S u with _ | s
  · rfl
  · simp [ridgeFit_unique hk x hl h h' u s hu]

theorem gather_opt_some (s : Fin n) : gatherIdx (n + 1) (optIdx (some s)) = s.castSucc := by
  have : (optIdx (some s) : ℤ) = ((s.castSucc : Fin (n + 1)) : ℤ) := rfl
  rw [this, gatherIdx_coe]

theorem gather_opt_none : gatherIdx (n + 1) (optIdx (none : Option (Fin n))) = Fin.last n := by
  have h : (optIdx (none : Option (Fin n)) : ℤ) = -1 := rfl
  rw [h]
  apply Fin.ext
  simp [gatherIdx]

theorem padGram_opt {k : X → X → ℝ} (x : Fin n → X) (s s' : Option (Fin n)) :
    padGram k x (gatherIdx (n + 1) (optIdx s)) (gatherIdx (n + 1) (optIdx s')) =
      s.elim 0 (fun a => s'.elim 0 (fun b => k (x a) (x b))) := by
  rcases s with _ | a
  · rw [gather_opt_none]
    simp [padGram]
  · rw [gather_opt_some]
    rcases s' with _ | b
    · rw [gather_opt_none]
      simp [padGram]
    · rw [gather_opt_some]
      simp [padGram]

theorem padVec_opt (y : Fin n → ℝ) (s : Option (Fin n)) : padVec y (gatherIdx (n + 1) (optIdx s)) = s.elim 0 y := by
  rcases s with _ | a
  · rw [gather_opt_none]; simp [padVec]
  · rw [gather_opt_some]; simp [padVec]

/-- The loss the solver computes for a candidate coreset is the squared error of the ridge regression on it, up to the sum of
squares of the responses. -/
theorem gkpLoss_ridge {solve : RlsSolver ℝ} (hs : ExactSolver solve) {k : X → X → ℝ} (hk : IsPSD k) (x : Fin n → X)
    (y : Fin n → ℝ) {reg : ℝ} (hreg : reg ≠ 0) {p : ℕ} (S : Fin p → Fin m → Option (Fin n)) (diag : Fin m → ℝ)
    (hdiag : ∀ b t, diag t = if (S b t).isSome then 1 else 0) (batch : Fin l → Fin n) :
    ∃ a : Fin p → Fin m → ℝ, (∀ b, IsRidgeFit (fun i j => k (x i) (x j)) y |reg| (S b) (a b)) ∧
      gkpLoss solve (padGram k x) (padVec y) reg diag (fun j => (batch j : ℤ)) (fun b t => optIdx (S b t)) =
        .ok fun b => fin (ridgeError (fun i j => k (x i) (x j)) y (S b) (a b) batch - ∑ j, y (batch j) ^ 2) := by
  obtain ⟨coef, h1, h2⟩ := gkpLoss_eq hs.numeric (padGram k x) (padVec y) reg diag (fun j => (batch j : ℤ))
    (fun b t => optIdx (S b t))
  have hlam : 0 < |reg| := abs_pos.2 hreg
  have hfit : ∀ b, IsRidgeFit (fun i j => k (x i) (x j)) y |reg| (S b) (fun t => coef b t 0) := by
    intro b
    obtain ⟨Z, hZ1, hZ2⟩ := hs (Matrix.of fun t u => padGram k x (gatherIdx (n + 1) (optIdx (S b t)))
      (gatherIdx (n + 1) (optIdx (S b u)))) |reg| (Matrix.of fun t (_ : Fin 1) => padVec y (gatherIdx (n + 1) (optIdx (S b t))))
      (Matrix.diagonal diag)
    have hZ : Z = coef b := by
      have := (hZ1.symm.trans (h1 b))
      rw [Except.ok.injEq] at this
      ext t u
      have := congrFun (congrFun this t) u
      simpa using this
    subst hZ
    rw [abs_abs] at hZ2
    set A : Matrix (Fin m) (Fin m) ℝ := Matrix.of fun t u => padGram k x (gatherIdx (n + 1) (optIdx (S b t)))
      (gatherIdx (n + 1) (optIdx (S b u))) with hA
    have hAe : ∀ t u, A t u = (S b t).elim 0 (fun s => (S b u).elim 0 (fun s' => k (x s) (x s'))) := fun t u => by
      rw [hA, Matrix.of_apply, padGram_opt]
    have hdg : diag = fun t => if (S b t).isSome = true then 1 else 0 := funext fun t => hdiag b t
    rw [hdg] at hZ2
    have hblock := C31_block A (by
        ext t u
        rw [Matrix.transpose_apply, hAe, hAe]
        rcases S b t with _ | s <;> rcases S b u with _ | s' <;> simp [hk.1])
      reg (fun t => (S b t).isSome = true) (fun t u ht => by
        rw [hAe]
        rcases h : S b t with _ | s
        · rfl
        · simp [h] at ht)
      (Matrix.of fun t (_ : Fin 1) => padVec y (gatherIdx (n + 1) (optIdx (S b t)))) (coef b) (fun t j ht => by
        rw [Matrix.of_apply, padVec_opt]
        rcases h : S b t with _ | s
        · rfl
        · simp [h] at ht)
      (fun v hv h0 => by
        have hv' : ∀ t, S b t = none → v t = 0 := fun t ht => hv t (by simp [ht])
        have hq := optForm_nonneg hk x (S b) v hv'
        have hrow : ∀ t, ∑ u, (S b t).elim 0 (fun s => (S b u).elim 0 (fun s' => k (x s) (x s') * v u)) = -(|reg| * v t) := by
          intro t
          have h3 := congrFun h0 t
          rw [Matrix.add_mulVec, Pi.add_apply, Matrix.smul_mulVec, Pi.smul_apply, Matrix.mulVec_diagonal, Pi.zero_apply,
            Matrix.mulVec, dotProduct, smul_eq_mul] at h3
          have h4 : ∑ u, (S b t).elim 0 (fun s => (S b u).elim 0 (fun s' => k (x s) (x s') * v u)) = ∑ u, A t u * v u := by
            refine Finset.sum_congr rfl fun u _ => ?_
            rw [hAe]
            rcases S b t with _ | s <;> rcases S b u with _ | s' <;> simp
          rw [h4]
          rcases ht : S b t with _ | s
          · have h5 : v t = 0 := hv' t ht
            rw [ht] at h3
            rw [h5] at h3 ⊢
            simpa using h3
          · rw [ht] at h3
            simp only [Option.isSome_some, if_true, one_mul] at h3
            linarith
        have hsum : ∑ t, |reg| * (v t * v t) ≤ 0 := by
          have : ∑ t, v t * ∑ u, (S b t).elim 0 (fun s => (S b u).elim 0 (fun s' => k (x s) (x s') * v u)) =
              -∑ t, |reg| * (v t * v t) := by
            rw [← Finset.sum_neg_distrib]
            refine Finset.sum_congr rfl fun t _ => ?_
            rw [hrow t]; ring
          rw [this] at hq
          linarith
        have hnn : ∀ t ∈ Finset.univ, 0 ≤ |reg| * (v t * v t) := fun t _ => mul_nonneg hlam.le (mul_self_nonneg _)
        funext t
        have h0 := (Finset.sum_eq_zero_iff_of_nonneg hnn).1 (le_antisymm hsum (Finset.sum_nonneg hnn)) t (Finset.mem_univ _)
        rcases mul_eq_zero.1 h0 with h | h
        · exact absurd h hlam.ne'
        · exact mul_self_eq_zero.1 h)
      hZ2
    intro t s hts
    have h3 := congrFun (congrFun hblock.1 t) 0
    rw [Matrix.add_mul, Matrix.add_apply, Matrix.smul_mul, Matrix.smul_apply, Matrix.diagonal_mul, Matrix.mul_apply,
      Matrix.of_apply, padVec_opt, hts, smul_eq_mul] at h3
    simp only [Option.isSome_some, if_true, one_mul, Option.elim_some] at h3
    rw [← h3]
    congr 1
    refine Finset.sum_congr rfl fun u _ => ?_
    rw [hAe, hts]
    rcases S b u with _ | s' <;> simp
  refine ⟨fun b t => coef b t 0, hfit, ?_⟩
  rw [h2]
  congr 1
  funext b
  congr 1
  unfold ridgeError
  rw [← Finset.sum_sub_distrib]
  refine Finset.sum_congr rfl fun j _ => ?_
  have e1 : ((batch j : Fin n) : ℤ) = optIdx (some (batch j)) := rfl
  rw [e1, padVec_opt]
  simp only [padGram_opt, Option.elim_some]
  have e2 : ∀ u, (S b u).elim 0 (fun a => k (x a) (x (batch j))) * coef b u 0 =
      (S b u).elim 0 (fun s => k (x s) (x (batch j)) * coef b u 0) := fun u => by
    rcases S b u with _ | s <;> simp
  simp only [e2]
  ring

end Coreax
