import Verif.Props.Weights
import Mathlib.Topology.Order.Compact
import Mathlib.Analysis.Convex.StdSimplex
import Mathlib.Topology.Algebra.Monoid
import Mathlib.Topology.Instances.Real.Lemmas

/-!
# Weights optimisers: the MMD metric, limits, and satisfiable contracts
-/

set_option linter.unusedSectionVars false

namespace Coreax

open Spec

/-! ### The contracts can be met -/

theorem exists_qp : ∃ qp : SimplexQP ℝ, QPContract qp := by
  have key : ∀ {m : ℕ} (Q : Fin m → Fin m → ℝ) (c : Fin m → ℝ), ∃ v : Fin m → ℝ, 0 < m → OnSimplex v ∧
      ∀ u, OnSimplex u → qpObjective Q c v ≤ qpObjective Q c u := by
    intro m Q c
    by_cases hm : 0 < m
    · have hne : (stdSimplex ℝ (Fin m)).Nonempty := ⟨Pi.single ⟨0, hm⟩ 1, single_mem_stdSimplex ℝ _⟩
      have hcont : ContinuousOn (qpObjective Q c) (stdSimplex ℝ (Fin m)) := by
        apply Continuous.continuousOn
        unfold qpObjective
        fun_prop
      obtain ⟨v, hv, hmin⟩ := (isCompact_stdSimplex ℝ (Fin m)).exists_isMinOn hne hcont
      exact ⟨v, fun _ => ⟨hv, fun u hu => hmin hu⟩⟩
    · exact ⟨0, fun h => absurd h hm⟩
  choose v hv using @key
  refine ⟨fun {m} Q c i => .fin (v Q c i), fun {m} Q c hm _ => ⟨v Q c, fun i => rfl, hv Q c hm⟩⟩

theorem exists_solve {K : Type*} [Field K] : ∃ solve : LinSolve K, SolveContract solve := by
  classical
  refine ⟨fun {n q} A B => A⁻¹ * B, fun {n q} A B hA => ?_⟩
  rw [← Matrix.mul_assoc, Matrix.mul_nonsing_inv A ((Matrix.isUnit_iff_isUnit_det A).1 hA), Matrix.one_mul]

/-! ### Relation to the MMD metric -/

theorem mmdSq_eq_distSq {K X : Type*} [Field K] [LinearOrder K] [IsStrictOrderedRing K] (k : X → X → K) {n m : ℕ} (x : Fin n → X) (w : Fin n → K)
    (y : Fin m → X) (u : Fin m → K) :
    mmdSq k x w y u = distSq k x (fun i => w i / ∑ a, w a) y (fun i => u i / ∑ a, u a) := by
  have key : ∀ {a b : ℕ} (p : Fin a → X) (f : Fin a → K) (q : Fin b → X) (g : Fin b → K),
      avg f (fun i => avg g fun j => k (p i) (q j)) = ∑ i, ∑ j, (f i / ∑ c, f c) * (g j / ∑ c, g c) * k (p i) (q j) := by
    intro a b p f q g
    unfold avg
    rw [Finset.sum_div]
    refine Finset.sum_congr rfl fun i _ => ?_
    simp only
    rw [mul_div_assoc', div_div, Finset.mul_sum, Finset.sum_div]
    exact Finset.sum_congr rfl fun j _ => by ring
  unfold mmdSq distSq
  rw [key, key, key]

/-- C29: with an exact QP solver and no regularisation, no non-negative reweighting of the coreset has a smaller MMD (as computed
by the metric) to the unweighted dataset than the weights returned. -/
theorem C29_mmd_optimal {X Y : Type*} [Zero X] (qp : SimplexQP ℝ) (hqp : QPContract qp) (big : ℝ) (k : X → X → ℝ) (hk : IsPSD k) {n m : ℕ}
    (hn : 0 < n) (hm : 0 < m) (dataset : DSet n X Y ℝ) (coreset : DSet m X Y ℝ) (h1 : dataset.sup = none) (h2 : coreset.sup = none)
    (bs bs' : PyTree (Option ℤ)) (hbs : ValidBlock bs) (hbs' : ValidBlock bs') :
    ∃ v : Fin m → ℝ, mmdWeightsSolve qp big k dataset coreset 0 bs = .ok (fun i => .fin (v i)) ∧
      ∃ r, mmdCompute big k (Data.ofArray dataset.data) ⟨coreset.data, v⟩ bs' = .ok r ∧
      ∀ u : Fin m → ℝ, (∀ i, 0 ≤ u i) → 0 < ∑ i, u i →
        ∃ r', mmdCompute big k (Data.ofArray dataset.data) ⟨coreset.data, u⟩ bs' = .ok r' ∧ r ≤ r' := by
  obtain ⟨v, h3, h4, h5⟩ := C29_optimal qp hqp big k hk.1 hn hm dataset coreset h1 h2 0 le_rfl
    (fun v => hk.2 m coreset.data v) bs hbs
  have hsum : ∑ j, (Data.ofArray (K := ℝ) dataset.data).weights j = n := by
    simp [Data.ofArray]
  have hn' : (n : ℝ) ≠ 0 := by exact_mod_cast hn.ne'
  refine ⟨v, h3, _, C07_compute big k hn hm _ _ (by rw [hsum]; exact hn') (by simp only; rw [h4.2]; exact one_ne_zero) bs' hbs', ?_⟩
  intro u hu hus
  refine ⟨_, C07_compute big k hn hm _ _ (by rw [hsum]; exact hn') (by simp only; exact hus.ne') bs' hbs', ?_⟩
  apply Real.sqrt_le_sqrt
  apply max_le_max le_rfl
  have h6 := h5 (fun i => u i / ∑ a, u a) ⟨fun i => div_nonneg (hu i) hus.le, by rw [← Finset.sum_div, div_self hus.ne']⟩
  rw [mmdSq_eq_distSq, mmdSq_eq_distSq]
  simp only [zero_mul, add_zero] at h6
  have e1 : (fun i => (Data.ofArray (K := ℝ) dataset.data).weights i / ∑ a, (Data.ofArray (K := ℝ) dataset.data).weights a)
      = fun _ => 1 / (n : ℝ) := by
    funext i; rw [hsum]; rfl
  have e2 : (fun i => v i / ∑ a, v a) = v := by funext i; rw [h4.2, div_one]
  rw [e1]
  simp only
  rw [e2]
  exact h6

example : ∃ qp : SimplexQP ℝ, ∃ v : Fin 2 → ℝ,
    mmdWeightsSolve (X := ℝ) (Y := Unit) qp 1000 (fun a b => a * b) ⟨⟨![1, 2, 6], fun _ => 1⟩, none⟩ ⟨⟨![1, 6], fun _ => 1⟩, none⟩ 0 (.leaf none)
      = .ok (fun i => .fin (v i)) ∧ OnSimplex v := by
  obtain ⟨qp, hqp⟩ := exists_qp
  obtain ⟨v, h1, h2, -⟩ := C29_optimal (X := ℝ) (Y := Unit) qp hqp 1000 (fun a b => a * b) (fun a b => mul_comm a b) (n := 3) (m := 2)
    (by norm_num) (by norm_num) ⟨⟨![1, 2, 6], fun _ => 1⟩, none⟩ ⟨⟨![1, 6], fun _ => 1⟩, none⟩ rfl rfl 0 le_rfl (fun v => by
      have : ∑ i, ∑ j, v i * v j * ((![1, 6] : Fin 2 → ℝ) i * (![1, 6] : Fin 2 → ℝ) j) = (∑ i, v i * (![1, 6] : Fin 2 → ℝ) i) ^ 2 := by
        simp [Fin.sum_univ_two]; ring
      rw [this]
      exact sq_nonneg _) (.leaf none) (by left; decide)
  exact ⟨qp, v, h1, h2⟩

/-! ### Limits -/

/-- The linear kernel on pairs. -/
def dotKernel (a b : ℚ × ℚ) : ℚ := a.1 * b.1 + a.2 * b.2

/-- C30: the weights are optimal for sums without normalisation only. The MMD metric divides by the total weight; after that
another weighting of the same two points is strictly better than the SBQ weights, for a kernel with positive definite Gram matrix. -/
theorem C30_metric_not_optimal :
    ∃ (dataset : DSet 1 (ℚ × ℚ) Unit ℚ) (coreset : DSet 2 (ℚ × ℚ) Unit ℚ) (v u : Fin 2 → ℚ), StrictPD dotKernel 0 coreset.data ∧
      (∀ solve : LinSolve ℚ, SolveContract solve → sbqSolve solve 1000 dotKernel dataset coreset 0 (.leaf none) = .ok v) ∧
      mmdSq dotKernel dataset.data dataset.weights coreset.data u < mmdSq dotKernel dataset.data dataset.weights coreset.data v := by
  have hpd : StrictPD dotKernel 0 (![(1, 0), (0, 2)] : Fin 2 → ℚ × ℚ) := by
    intro v hv
    simp only [Fin.sum_univ_two, dotKernel, Matrix.cons_val_zero, Matrix.cons_val_one, zero_mul, add_zero]
    have : v 0 ≠ 0 ∨ v 1 ≠ 0 := by
      obtain ⟨i, hi⟩ := hv
      fin_cases i
      · exact Or.inl hi
      · exact Or.inr hi
    rcases this with h | h
    · have := sq_pos_of_ne_zero h
      nlinarith [sq_nonneg (v 1)]
    · have := sq_pos_of_ne_zero h
      nlinarith [sq_nonneg (v 0)]
  refine ⟨⟨⟨![(1/2, 1/2)], fun _ => 1⟩, none⟩, ⟨⟨![(1, 0), (0, 2)], fun _ => 1⟩, none⟩, ![1/2, 1/4], ![7/10, 3/10], hpd, ?_, ?_⟩
  · intro solve hsolve
    obtain ⟨v, h1, h2⟩ := C30_optimal (X := ℚ × ℚ) (Y := Unit) solve hsolve 1000 dotKernel (fun a b => by unfold dotKernel; ring) (by norm_num) (by norm_num)
      ⟨⟨![(1/2, 1/2)], fun _ => 1⟩, none⟩ ⟨⟨![(1, 0), (0, 2)], fun _ => 1⟩, none⟩ rfl rfl 0 (.leaf none) (by left; decide) hpd
    rw [h1]
    by_contra hne
    have := h2 ![1/2, 1/4] (fun h => hne (by rw [h]))
    simp only [distSq, dotKernel, Fin.sum_univ_two, Fin.sum_univ_one, Fin.isValue, Matrix.cons_val_zero, Matrix.cons_val_one, zero_mul, add_zero, Nat.cast_one] at this
    nlinarith [sq_nonneg (v 0 - 1/2), sq_nonneg (v 1 - 1/4)]
  · decide +kernel

/-- C30, C29: dataset weights are ignored, so the weights returned need not be optimal for a weighted dataset. For two points with
weights 3 and 1 the coreset consisting of the same two points gets equal SBQ weights although the weights (3/4, 1/4) reproduce
the weighted dataset exactly. -/
theorem C30_weighted_dataset_not_optimal :
    ∃ (dataset : DSet 2 (ℚ × ℚ) Unit ℚ) (coreset : DSet 2 (ℚ × ℚ) Unit ℚ) (v u : Fin 2 → ℚ), StrictPD dotKernel 0 coreset.data ∧
      (∀ solve : LinSolve ℚ, SolveContract solve → sbqSolve solve 1000 dotKernel dataset coreset 0 (.leaf none) = .ok v) ∧
      OnSimplex v ∧ OnSimplex u ∧ mmdSq dotKernel dataset.data dataset.weights coreset.data u = 0 ∧
      0 < mmdSq dotKernel dataset.data dataset.weights coreset.data v := by
  have hpd : StrictPD dotKernel 0 (![(1, 0), (0, 1)] : Fin 2 → ℚ × ℚ) := by
    intro v hv
    simp only [Fin.sum_univ_two, dotKernel, Matrix.cons_val_zero, Matrix.cons_val_one, zero_mul, add_zero]
    have : v 0 ≠ 0 ∨ v 1 ≠ 0 := by
      obtain ⟨i, hi⟩ := hv
      fin_cases i
      · exact Or.inl hi
      · exact Or.inr hi
    rcases this with h | h
    · have := sq_pos_of_ne_zero h
      nlinarith [sq_nonneg (v 1)]
    · have := sq_pos_of_ne_zero h
      nlinarith [sq_nonneg (v 0)]
  refine ⟨⟨⟨![(1, 0), (0, 1)], ![3, 1]⟩, none⟩, ⟨⟨![(1, 0), (0, 1)], fun _ => 1⟩, none⟩, ![1/2, 1/2], ![3/4, 1/4], hpd, ?_, ?_, ?_, ?_, ?_⟩
  · intro solve hsolve
    obtain ⟨v, h1, h2⟩ := C30_optimal (X := ℚ × ℚ) (Y := Unit) solve hsolve 1000 dotKernel (fun a b => by unfold dotKernel; ring) (by norm_num) (by norm_num)
      ⟨⟨![(1, 0), (0, 1)], ![3, 1]⟩, none⟩ ⟨⟨![(1, 0), (0, 1)], fun _ => 1⟩, none⟩ rfl rfl 0 (.leaf none) (by left; decide) hpd
    rw [h1]
    by_contra hne
    have := h2 ![1/2, 1/2] (fun h => hne (by rw [h]))
    simp only [distSq, dotKernel, Fin.sum_univ_two, Fin.isValue, Matrix.cons_val_zero, Matrix.cons_val_one, zero_mul, add_zero] at this
    nlinarith [sq_nonneg (v 0 - 1/2), sq_nonneg (v 1 - 1/2)]
  · exact ⟨by decide +kernel, by decide +kernel⟩
  · exact ⟨by decide +kernel, by decide +kernel⟩
  · decide +kernel
  · decide +kernel

example (qp : SimplexQP ℝ) (solve : LinSolve ℝ) := C29_ignores_weights (Y := Unit) qp solve 1000 (fun a b : ℝ => a * b) ⟨⟨![1, 2, 6], fun _ => 1⟩, none⟩ ⟨⟨![1, 2, 6], ![5, 0, 1]⟩, none⟩
  ⟨⟨![1, 6], fun _ => 1⟩, none⟩ ⟨⟨![1, 6], ![0, 3]⟩, none⟩ (1 / 10) (.leaf none) rfl rfl rfl rfl

/-- The kernel that is 1 on equal points, three rows and two of them as coreset. -/
example (solve : LinSolve ℝ) (hs : SolveContract solve) := C30_pythagoras (Y := Unit) solve hs 1000 (fun a b : ℝ => if a = b then (1 : ℝ) else 0) (fun a b => by simp only [eq_comm]) (n := 3) (m := 2)
  (by norm_num) (by norm_num) ⟨⟨![1, 2, 6], fun _ => 1⟩, none⟩ ⟨⟨![1, 6], fun _ => 1⟩, none⟩ rfl rfl 0 (.leaf none) (.inl rfl)
  (by rw [Matrix.isUnit_iff_isUnit_det, Matrix.det_fin_two]; norm_num)

example (solve : LinSolve ℝ) (hs : SolveContract solve) := C30_optimal (Y := Unit) solve hs 1000 (fun a b : ℝ => if a = b then (1 : ℝ) else 0) (fun a b => by simp only [eq_comm]) (n := 3) (m := 2)
  (by norm_num) (by norm_num) ⟨⟨![1, 2, 6], fun _ => 1⟩, none⟩ ⟨⟨![1, 6], fun _ => 1⟩, none⟩ rfl rfl 0 (.leaf none) (.inl rfl)
  (fun v hv => by
    obtain ⟨i, hi⟩ := hv
    have : 0 < v 0 * v 0 + v 1 * v 1 := by
      fin_cases i
      · exact add_pos_of_pos_of_nonneg (mul_self_pos.2 hi) (mul_self_nonneg _)
      · exact add_pos_of_nonneg_of_pos (mul_self_nonneg _) (mul_self_pos.2 hi)
    simpa [Fin.sum_univ_two] using this)

end Coreax
