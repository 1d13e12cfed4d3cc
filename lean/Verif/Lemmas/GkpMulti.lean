import Verif.Model.GkpMulti
import Verif.Lemmas.Ridge

/-!
# Lemmas about greedy kernel points with several responses
-/

set_option linter.unusedSectionVars false

namespace Coreax

open Spec Matrix Ext

section
variable {K : Type*} [Field K] [LinearOrder K] [IsStrictOrderedRing K]

theorem broadcastDim_none {a b : ℕ} : broadcastDim a b = none ↔ a ≠ b ∧ a ≠ 1 ∧ b ≠ 1 := by
  unfold broadcastDim
  split_ifs <;> simp_all

theorem broadcastDim_some {l q w : ℕ} (h : broadcastDim l (q + 1) = some w) :
    broadcastDim w l = some w ∧ (w = l ∨ l = 1) ∧ (w = q + 1 ∨ q + 1 = 1) := by
  unfold broadcastDim at h ⊢
  split_ifs at h <;> simp only [Option.some.injEq] at h <;> subst h <;> split_ifs <;> simp_all

theorem broadcastGet_fin {a w : ℕ} (h : w = a ∨ a = 1) (f : Fin a → K) (j : Fin w) :
    broadcastGet Ext.nan (fun i => fin (f i)) j = fin (broadcastGet 0 f j) := by
  unfold broadcastGet
  split_ifs with h1 h2
  · rfl
  · rfl
  · exfalso
    have := j.2
    omega

theorem broadcastGet_self {α : Type*} {a : ℕ} (d : α) (f : Fin a → α) (j : Fin a) : broadcastGet d f j = f j := by
  unfold broadcastGet
  rw [dif_pos j.2]

theorem broadcastGet_one {α : Type*} (d : α) (f : Fin 1 → α) (j : ℕ) : broadcastGet d f j = f 0 := by
  unfold broadcastGet
  split_ifs with h
  · exact congrArg f (Fin.ext (by simp; omega))
  · rfl
  · exact absurd rfl ‹¬ (1 : ℕ) = 1›

/-- The loss with a numeric solver: an error if the loss batch and the responses do not broadcast, otherwise a sum over the
broadcast axis. -/
theorem gkpLossMulti_eq {solve : RlsSolver K} (hs : NumericSolver solve) {n size p l q : ℕ}
    (padG : Fin (n + 1) → Fin (n + 1) → K) (padY : Fin (n + 1) → Fin (q + 1) → K) (reg : K) (diag : Fin size → K)
    (lossBatch : Fin l → ℤ) (cand : Fin p → Fin size → ℤ) :
    ∃ coef : Fin p → Matrix (Fin size) (Fin (q + 1)) K,
      (∀ b, solve (Matrix.of fun t u => padG (gatherIdx (n + 1) (cand b t)) (gatherIdx (n + 1) (cand b u))) |reg|
        (Matrix.of fun t j => padY (gatherIdx (n + 1) (cand b t)) j) (Matrix.diagonal diag) = .ok ((coef b).map Ext.fin)) ∧
      (broadcastDim l (q + 1) = none →
        gkpLossMulti solve padG padY reg diag lossBatch cand = .error .typeError) ∧
      ∀ w, broadcastDim l (q + 1) = some w →
        gkpLossMulti solve padG padY reg diag lossBatch cand = .ok fun b => fin (∑ j : Fin w,
          (∑ t, broadcastGet 0 (fun i : Fin l => padG (gatherIdx (n + 1) (cand b t)) (gatherIdx (n + 1) (lossBatch i))) j *
              broadcastGet 0 (coef b t) j -
            broadcastGet 0 (fun i : Fin l => 2 * padY (gatherIdx (n + 1) (lossBatch i)) 0) j) *
          ∑ t, broadcastGet 0 (fun i : Fin l => padG (gatherIdx (n + 1) (cand b t)) (gatherIdx (n + 1) (lossBatch i))) j *
              broadcastGet 0 (coef b t) j) := by
  choose coef hcoef using fun b => hs (Matrix.of fun t u => padG (gatherIdx (n + 1) (cand b t)) (gatherIdx (n + 1) (cand b u)))
    |reg| (Matrix.of fun t j => padY (gatherIdx (n + 1) (cand b t)) j) (Matrix.diagonal diag)
  have hcol := (collect_ok_iff _ _).2 hcoef
  refine ⟨coef, hcoef, fun h => ?_, fun w h => ?_⟩
  · simp only [gkpLossMulti, solveStack, hcol, h]
  · obtain ⟨h1, h2, h3⟩ := broadcastDim_some h
    simp only [gkpLossMulti, solveStack, hcol, h, h1]
    congr 1
    funext b
    have e1 : ∀ (t : Fin size) (j : Fin w), broadcastGet Ext.nan ((coef b).map Ext.fin t) j = fin (broadcastGet 0 (coef b t) j) :=
      fun t j => broadcastGet_fin h3 (coef b t) j
    simp only [broadcastGet_self, broadcastGet_fin h2, e1, fin_mul_fin, sum_fin, fin_sub_fin]

/-- With one response the loss is that of `gkpLoss`, for any solver. -/
theorem gkpLossMulti_single (solve : RlsSolver K) {n size p l : ℕ} (padG : Fin (n + 1) → Fin (n + 1) → K)
    (padY : Fin (n + 1) → Fin (0 + 1) → K) (reg : K) (diag : Fin size → K) (lossBatch : Fin l → ℤ) (cand : Fin p → Fin size → ℤ) :
    gkpLossMulti solve padG padY reg diag lossBatch cand =
      gkpLoss solve padG (fun i => padY i 0) reg diag lossBatch cand := by
  have hB : ∀ b, (Matrix.of fun t j => padY (gatherIdx (n + 1) (cand b t)) j : Matrix (Fin size) (Fin (0 + 1)) K) =
      Matrix.of fun t (_ : Fin 1) => padY (gatherIdx (n + 1) (cand b t)) 0 := fun b => by
    ext t j
    exact congrArg _ (Subsingleton.elim (α := Fin 1) j 0)
  have hd : broadcastDim l (0 + 1) = some l := by
    unfold broadcastDim
    split_ifs <;> simp_all
  have hd' : broadcastDim l l = some l := by simp [broadcastDim]
  unfold gkpLossMulti gkpLoss
  simp only [hB]
  rcases solveStack solve _ reg _ _ with e | coef
  · rfl
  · simp only [hd, hd', broadcastGet_self, broadcastGet_one]

end

variable {X : Type*} {n m l q : ℕ}

theorem padRows_opt (y : Fin n → Fin (q + 1) → ℝ) (s : Option (Fin n)) (j : Fin (q + 1)) :
    padRows y (gatherIdx (n + 1) (optIdx s)) j = s.elim 0 (fun i => y i j) := by
  rcases s with _ | a
  · rw [gather_opt_none]; simp [padRows]
  · rw [gather_opt_some]; simp [padRows]

/-- The coefficients of an exact solver are, column by column, those of the ridge regressions of the responses. -/
theorem ridgeFit_columns {k : X → X → ℝ} (hk : IsPSD k) (x : Fin n → X) (y : Fin n → Fin (q + 1) → ℝ) {reg : ℝ} (hreg : reg ≠ 0)
    (S : Fin m → Option (Fin n)) (diag : Fin m → ℝ) (hdiag : ∀ t, diag t = if (S t).isSome then 1 else 0)
    {Z : Matrix (Fin m) (Fin (q + 1)) ℝ}
    (hZ2 : IsMinNormLstsq ((Matrix.of fun t u => padGram k x (gatherIdx (n + 1) (optIdx (S t)))
      (gatherIdx (n + 1) (optIdx (S u)))) + |reg| • Matrix.diagonal diag)
      (Matrix.of fun t j => padRows y (gatherIdx (n + 1) (optIdx (S t))) j) Z) :
    ∀ j, IsRidgeFit (fun i i' => k (x i) (x i')) (fun i => y i j) |reg| S (fun t => Z t j) := by
  have hlam : 0 < |reg| := abs_pos.2 hreg
  set A : Matrix (Fin m) (Fin m) ℝ := Matrix.of fun t u => padGram k x (gatherIdx (n + 1) (optIdx (S t)))
    (gatherIdx (n + 1) (optIdx (S u))) with hA
  have hAe : ∀ t u, A t u = (S t).elim 0 (fun s => (S u).elim 0 (fun s' => k (x s) (x s'))) := fun t u => by
    rw [hA, Matrix.of_apply, padGram_opt]
  have hdg : diag = fun t => if (S t).isSome = true then 1 else 0 := funext fun t => hdiag t
  rw [hdg] at hZ2
  have hblock := C31_block A (by
      ext t u
      rw [Matrix.transpose_apply, hAe, hAe]
      rcases S t with _ | s <;> rcases S u with _ | s' <;> simp [hk.1])
    reg (fun t => (S t).isSome = true) (fun t u ht => by
      rw [hAe]
      rcases h : S t with _ | s
      · rfl
      · simp [h] at ht)
    (Matrix.of fun t j => padRows y (gatherIdx (n + 1) (optIdx (S t))) j) (Z) (fun t j ht => by
      rw [Matrix.of_apply, padRows_opt]
      rcases h : S t with _ | s
      · rfl
      · simp [h] at ht)
    (fun v hv h0 => by
      have hv' : ∀ t, S t = none → v t = 0 := fun t ht => hv t (by simp [ht])
      have hq := optForm_nonneg hk x S v hv'
      have hrow : ∀ t, ∑ u, (S t).elim 0 (fun s => (S u).elim 0 (fun s' => k (x s) (x s') * v u)) = -(|reg| * v t) := by
        intro t
        have h3 := congrFun h0 t
        rw [Matrix.add_mulVec, Pi.add_apply, Matrix.smul_mulVec, Pi.smul_apply, Matrix.mulVec_diagonal, Pi.zero_apply,
          Matrix.mulVec, dotProduct, smul_eq_mul] at h3
        have h4 : ∑ u, (S t).elim 0 (fun s => (S u).elim 0 (fun s' => k (x s) (x s') * v u)) = ∑ u, A t u * v u := by
          refine Finset.sum_congr rfl fun u _ => ?_
          rw [hAe]
          rcases S t with _ | s <;> rcases S u with _ | s' <;> simp
        rw [h4]
        rcases ht : S t with _ | s
        · have h5 : v t = 0 := hv' t ht
          rw [ht] at h3
          rw [h5] at h3 ⊢
          simpa using h3
        · rw [ht] at h3
          simp only [Option.isSome_some, if_true, one_mul] at h3
          linarith
      have hsum : ∑ t, |reg| * (v t * v t) ≤ 0 := by
        have : ∑ t, v t * ∑ u, (S t).elim 0 (fun s => (S u).elim 0 (fun s' => k (x s) (x s') * v u)) =
            -∑ t, |reg| * (v t * v t) := by
          rw [← Finset.sum_neg_distrib]
          refine Finset.sum_congr rfl fun t _ => ?_
          rw [hrow t]; ring
        rw [this] at hq
        linarith
      have hnn : ∀ t ∈ Finset.univ, 0 ≤ |reg| * (v t * v t) := fun t _ => mul_nonneg hlam.le (mul_self_nonneg _)
      funext t
      have h0 := (Finset.sum_eq_zero_iff_of_nonneg hnn).1 (le_antisymm hsum (Finset.sum_nonneg hnn)) t (Finset.mem_univ _)
      rcases mul_eq_zero.1 h0 with h | h
      · exact absurd h hlam.ne'
      · exact mul_self_eq_zero.1 h)
    hZ2
  intro j t s hts
  have h3 := congrFun (congrFun hblock.1 t) j
  rw [Matrix.add_mul, Matrix.add_apply, Matrix.smul_mul, Matrix.smul_apply, Matrix.diagonal_mul, Matrix.mul_apply,
    Matrix.of_apply, padRows_opt, hts, smul_eq_mul] at h3
  simp only [Option.isSome_some, if_true, one_mul, Option.elim_some] at h3
  beta_reduce
  rw [← h3]
  congr 1
  refine Finset.sum_congr rfl fun u _ => ?_
  rw [hAe, hts]
  rcases S u with _ | s' <;> simp

end Coreax
