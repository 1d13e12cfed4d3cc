import Verif.Props.PivotRate
import Mathlib.Analysis.InnerProductSpace.PiL2
import Mathlib.LinearAlgebra.Matrix.Rank

/-!
# C53: randomly pivoted Cholesky against the best low-rank approximation
-/

set_option linter.unusedSectionVars false

namespace Coreax

open Spec MeasureTheory

theorem exists_orthonormal_of_finrank {n m : ℕ} (W : Submodule ℝ (EuclideanSpace ℝ (Fin n))) (hdim : Module.finrank ℝ W = m) :
    ∃ q : Fin m → Fin n → ℝ, Spec.Orthonormal q ∧ ∀ w ∈ W, ∀ i, w i = ∑ a, (∑ l, q a l * w l) * q a i := by
  subst hdim
  obtain ⟨b⟩ : Nonempty (OrthonormalBasis (Fin (Module.finrank ℝ W)) ℝ W) := ⟨stdOrthonormalBasis ℝ W⟩
  have hin : ∀ u v : EuclideanSpace ℝ (Fin n), inner ℝ u v = ∑ i, u i * v i := fun u v => by
    rw [PiLp.inner_apply]
    exact Finset.sum_congr rfl fun i _ => by rw [real_inner_eq_re_inner ℝ]; simp [mul_comm]
  refine ⟨fun a i => (b a : EuclideanSpace ℝ (Fin n)) i, fun a c => ?_, fun w hw i => ?_⟩
  · rw [← hin, ← Submodule.coe_inner]
    exact orthonormal_iff_ite.1 b.orthonormal a c
  · have h := congrArg (fun v : W => (v : EuclideanSpace ℝ (Fin n))) (b.sum_repr' ⟨w, hw⟩)
    simp only [Submodule.coe_sum, Submodule.coe_smul, Submodule.coe_inner] at h
    have h2 := congrArg (fun v : EuclideanSpace ℝ (Fin n) => v i) h
    simp only [hin] at h2
    rw [← h2]
    simp

/-- A matrix of rank `m` has its columns in the span of `m` orthonormal vectors. -/
theorem exists_orthonormal_columns {n : ℕ} (B : Fin n → Fin n → ℝ) :
    ∃ q : Fin (Matrix.of B).rank → Fin n → ℝ, Spec.Orthonormal q ∧ ∀ i j, B i j = ∑ a, (∑ l, q a l * B l j) * q a i := by
  obtain ⟨q, hq, h⟩ := exists_orthonormal_of_finrank (m := (Matrix.of B).rank)
    ((LinearMap.range (Matrix.of B).mulVecLin).map (WithLp.linearEquiv 2 ℝ (Fin n → ℝ)).symm.toLinearMap)
    (by rw [Matrix.rank]; exact LinearEquiv.finrank_map_eq (WithLp.linearEquiv 2 ℝ (Fin n → ℝ)).symm _)
  refine ⟨q, hq, fun i j => ?_⟩
  have hmem : (WithLp.linearEquiv 2 ℝ (Fin n → ℝ)).symm (fun l => B l j) ∈
      (LinearMap.range (Matrix.of B).mulVecLin).map (WithLp.linearEquiv 2 ℝ (Fin n → ℝ)).symm.toLinearMap := by
    refine Submodule.mem_map.2 ⟨fun l => B l j, ⟨Pi.single j 1, ?_⟩, rfl⟩
    funext l
    simp
  exact h _ hmem i

/-- What an orthonormal basis of the columns of `B` leaves over is at most the trace of `G - B`. -/
theorem tail_le_of_columns {n r : ℕ} {q : Fin r → Fin n → ℝ} {G B : Fin n → Fin n → ℝ} (hB : ∀ i j, B i j = ∑ a, (∑ l, q a l * B l j) * q a i)
    (hpos : NonnegForm fun i j => G i j - B i j) : tail G q ≤ ∑ j, (G j j - B j j) := by
  have h1 : 0 ≤ captured (fun i j => G i j - B i j) q := captured_nonneg q hpos
  have h2 : captured (fun i j => G i j - B i j) q = captured G q - captured B q := by
    simp only [captured, form, mul_sub, Finset.sum_sub_distrib]
  have h3 : trace B = captured B q := by
    unfold trace captured form
    rw [Finset.sum_congr rfl fun i _ => hB i i, Finset.sum_comm]
    refine Finset.sum_congr rfl fun a _ => ?_
    rw [Finset.sum_comm]
    refine Finset.sum_congr rfl fun i _ => ?_
    rw [Finset.sum_mul]
    exact Finset.sum_congr rfl fun l _ => by ring
  rw [Finset.sum_sub_distrib]
  change tail G q ≤ trace G - trace B
  unfold tail
  linarith

section
variable {X U : Type} {n size : ℕ} [NeZero n] [MeasurableSpace U] {μ : Measure U} {D : U → (Fin n → Ext ℝ) → ℤ}
  {k : X → X → ℝ} (x : Fin n → X) (unique : Bool)

/-- `meanAfter_bound` with bounds for the rank and the remainder. -/
theorem meanAfter_bound_le (hD : PivotLaw μ D) (hk : IsPSD k) (hs : size ≤ n) {r : ℕ} {q : Fin r → Fin n → ℝ} (hq : Spec.Orthonormal q)
    {R : ℕ} (hrR : r ≤ R) {ε η : ℝ} (hε : 0 < ε) (hη : 0 < η) (hb : tail (fun a b => k (x a) (x b)) q ≤ η)
    (hT : R / ε + R * Real.log ((∑ j, k (x j) (x j)) / (ε * η)) ≤ size) :
    meanAfter μ D k x unique size trace size ≤ (1 + ε) * η := by
  have hpsd : NonnegForm (fun a b => k (x a) (x b)) := fun c => by simpa using hk.2 n x c
  have hsym : ∀ a b, k (x a) (x b) = k (x b) (x a) := fun _ _ => hk.1 _ _
  have hA := fun i => meanAfter_nonneg (size := size) (μ := μ) (D := D) x unique hk (g := fun R => captured R q) (fun R hR _ => captured_nonneg q hR) i
  have h2 := meanAfter_tail_le x unique hD hk hs hq le_rfl
  rw [meanAfter_trace x unique (q := q)]
  have ht0 := tail_nonneg hq hpsd hsym
  have hεη : 0 < ε * η := mul_pos hε hη
  suffices meanAfter μ D k x unique size (fun R => captured R q) size ≤ ε * η by linarith
  rcases Nat.eq_zero_or_pos r with rfl | hr
  · have : ∀ R : Fin n → Fin n → ℝ, captured R q = 0 := fun R => by simp [captured]
    simp only [meanAfter, this, mul_zero, Finset.sum_const_zero]
    exact hεη.le
  have hstep : ∀ i, i < size → meanAfter μ D k x unique size (fun R => captured R q) (i + 1) ≤ meanAfter μ D k x unique size (fun R => captured R q) i -
      meanAfter μ D k x unique size (fun R => captured R q) i ^ 2 / (r * (meanAfter μ D k x unique size (fun R => captured R q) i + η)) := by
    intro i hi
    refine (meanAfter_captured_step x unique hD hk hs hq hr hi).trans (sub_le_sub_left ?_ _)
    have hr' : (0 : ℝ) < r := by exact_mod_cast hr
    rcases (hA i).lt_or_eq with h0 | h0
    · exact div_le_div_of_nonneg_left (sq_nonneg _) (by positivity) (mul_le_mul_of_nonneg_left (by linarith) hr'.le)
    · rw [← h0]; simp
  have h0 : meanAfter μ D k x unique size (fun R => captured R q) 0 = captured (fun a b => k (x a) (x b)) q := meanAfter_zero ..
  have hcap : captured (fun a b => k (x a) (x b)) q ≤ ∑ j, k (x j) (x j) := by
    have : tail (fun a b => k (x a) (x b)) q = (∑ j, k (x j) (x j)) - captured (fun a b => k (x a) (x b)) q := rfl
    linarith
  by_cases hc : captured (fun a b => k (x a) (x b)) q ≤ ε * η
  · have hmono : ∀ i, i ≤ size → meanAfter μ D k x unique size (fun R => captured R q) i ≤ captured (fun a b => k (x a) (x b)) q := by
      intro i
      induction i with
      | zero => intro _; rw [h0]
      | succ i ih =>
        intro hi
        refine (hstep i (by omega)).trans (le_trans ?_ (ih (by omega)))
        have : 0 ≤ meanAfter μ D k x unique size (fun R => captured R q) i ^ 2 / (r * (meanAfter μ D k x unique size (fun R => captured R q) i + η)) :=
          div_nonneg (sq_nonneg _) (mul_nonneg (Nat.cast_nonneg r) (add_nonneg (hA i) hη.le))
        linarith
    exact (hmono size le_rfl).trans hc
  · push Not at hc
    refine recursion_bound_upto (r := r) (by exact_mod_cast hr) hη hε hA size hstep ?_
    rw [h0]
    have hrR' : (r : ℝ) ≤ R := by exact_mod_cast hrR
    have hl0 : 0 ≤ Real.log (captured (fun a b => k (x a) (x b)) q / (ε * η)) := Real.log_nonneg ((one_le_div hεη).2 hc.le)
    have hl1 : Real.log (captured (fun a b => k (x a) (x b)) q / (ε * η)) ≤ Real.log ((∑ j, k (x j) (x j)) / (ε * η)) :=
      Real.log_le_log (div_pos (by linarith) hεη) (div_le_div_of_nonneg_right hcap hεη.le)
    have h3 : (r : ℝ) / ε ≤ R / ε := div_le_div_of_nonneg_right hrR' hε.le
    have h4 : (r : ℝ) * Real.log (captured (fun a b => k (x a) (x b)) q / (ε * η)) ≤ R * Real.log ((∑ j, k (x j) (x j)) / (ε * η)) :=
      mul_le_mul hrR' hl1 hl0 (by linarith)
    linarith

/-- The expected error is at most `1 + ε` times the trace error `η` of any approximation from below of rank at most `r`, in particular of the best
one, once the coreset has `r / ε + r log (trace / (ε η))` points. -/
theorem C53_best_rank [IsProbabilityMeasure μ] (hD : PivotLaw μ D) (hk : IsPSD k) (hs : size ≤ n) :
    ∃ err : (Fin size → U) → ℝ, Integrable err (Measure.pi fun _ => μ) ∧
      (∀ ω, ∃ c state A, rpcReduce Real.sqrt k x unique (drawOf D ω) size none = .ok (c, state) ∧
        IsNystrom (fun i j => k (x i) (x j)) {j | ∃ t, c.data t = (j : ℤ)} A ∧ err ω = ∑ j, (k (x j) (x j) - A j j)) ∧
      ∀ (B : Fin n → Fin n → ℝ) (r : ℕ) (ε : ℝ), (Matrix.of B).rank ≤ r → NonnegForm (fun i j => k (x i) (x j) - B i j) → 0 < ε →
        0 < ∑ j, (k (x j) (x j) - B j j) →
        r / ε + r * Real.log ((∑ j, k (x j) (x j)) / (ε * ∑ j, (k (x j) (x j) - B j j))) ≤ size →
        ∫ ω, err ω ∂(Measure.pi fun _ => μ) ≤ (1 + ε) * ∑ j, (k (x j) (x j) - B j j) := by
  obtain ⟨err, h1, h2, h3⟩ := integral_error (size := size) x unique hD hk hs
  refine ⟨err, h1, h2, fun B r ε hB hpos hε hη hT => ?_⟩
  rw [h3]
  obtain ⟨q, hq, hcol⟩ := exists_orthonormal_columns B
  exact meanAfter_bound_le x unique hD hk hs hq hB hε hη (tail_le_of_columns hcol hpos) hT

end

/-- Four orthogonal points: against `B` of rank one with error three, two points suffice for `ε = 1`. -/
example : ∃ B : Fin 4 → Fin 4 → ℝ, (Matrix.of B).rank ≤ 1 ∧ NonnegForm (fun i j => (if i = j then (1 : ℝ) else 0) - B i j) ∧
    0 < ∑ j : Fin 4, ((if j = j then (1 : ℝ) else 0) - B j j) ∧
    ((1 : ℕ) : ℝ) / 1 + ((1 : ℕ) : ℝ) * Real.log ((∑ j : Fin 4, if j = j then (1 : ℝ) else 0) /
      (1 * ∑ j : Fin 4, ((if j = j then (1 : ℝ) else 0) - B j j))) ≤ ((2 : ℕ) : ℝ) := by
  refine ⟨fun i j => if i = 0 ∧ j = 0 then 1 else 0, ?_, fun c => ?_, ?_, ?_⟩
  · have : Matrix.of (fun i j : Fin 4 => if i = 0 ∧ j = 0 then (1 : ℝ) else 0) = Matrix.vecMulVec ![1, 0, 0, 0] ![1, 0, 0, 0] := by
      ext i j
      fin_cases i <;> fin_cases j <;> simp [Matrix.vecMulVec]
    rw [this]
    exact Matrix.rank_vecMulVec_le _ _
  · simp [Fin.sum_univ_four]
    nlinarith [sq_nonneg (c 1), sq_nonneg (c 2), sq_nonneg (c 3)]
  · simp
  · have h := Real.log_le_sub_one_of_pos (show (0 : ℝ) < 4 / 3 by norm_num)
    have e : (∑ j : Fin 4, ((if j = j then (1 : ℝ) else 0) - if j = 0 ∧ j = 0 then 1 else 0)) = 3 := by
      simp
      norm_num
    rw [e]
    simp
    norm_num at h ⊢
    linarith

end Coreax
