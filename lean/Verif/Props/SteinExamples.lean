import Verif.Props.HerdingExamples
import Verif.Props.SteinIdentity

/-!
# C86: the herding examples with a Stein kernel
-/

set_option linter.unusedSectionVars false

namespace Coreax

open Spec HerdingExamples

section
variable {d n : ℕ} [NeZero n]

namespace HerdingExamples

theorem stein_check {l : ℝ} (hl : 0 < l) (score : Vec d → Vec d) : (KExpr.stein (.pcimq l 1) score : KExpr d).check = .ok () := by
  simp only [KExpr.check, checkPos, if_neg (not_le.2 hl), if_neg (not_le.2 (one_pos : (0 : ℝ) < 1))]
  rfl

theorem stein_psd {l : ℝ} (hl : 0 < l) (score : Vec d → Vec d) : IsPSD (KExpr.stein (.pcimq l 1) score : KExpr d).sem.compute :=
  C08_psd _ (stein_check hl score) ⟨trivial, trivial, rfl, rfl⟩

theorem stein_diag {l : ℝ} (hl : 0 < l) (score : Vec d → Vec d) (a : Vec d) :
    (KExpr.stein (.pcimq l 1) score : KExpr d).sem.compute a a = d / (2 * l ^ 2) + ∑ i, score a i ^ 2 := by
  simp [KExpr.sem, KSem.ofCompute, steinCompute, pcimqSem, vdot, sqDist, pow_two]
  ring

/-- The score of a kernel density estimate is an average of differences to the data. -/
theorem kde_score_le {m : ℕ} (hm : 0 < m) {l : ℝ} (hl : 0 < l) (x : Fin m → Vec d) {t : Vec d → Vec d}
    (h : IsScore (fun z => ∑ j, Real.exp (-(∑ i, (z i - x j i) ^ 2) / (2 * l ^ 2))) t) (z : Vec d) (D : ℝ) (hD : ∀ j, ∑ i, (z i - x j i) ^ 2 ≤ D) :
    ∑ i, t z i ^ 2 ≤ D / l ^ 4 := by
  set w : Fin m → ℝ := fun j => Real.exp (-sqDist (x j) z / (2 * l ^ 2)) with hw
  have hwp : ∀ j, 0 < w j := fun j => Real.exp_pos _
  have hW : 0 < ∑ j, w j := Finset.sum_pos (fun j _ => hwp j) ⟨⟨0, hm⟩, Finset.mem_univ _⟩
  have h1 : ∀ i, (∑ j, w j) * t z i = ∑ j, w j * (-((z i - x j i) / l ^ 2)) := by
    intro i
    have := SteinMean.kde_score_eq hl x h i z
    simp only [SteinMean.sqDist_pow] at this
    rw [hw]
    rw [this]
    exact Finset.sum_congr rfl fun j _ => by ring
  have h2 : ∀ i, (∑ j, w j) ^ 2 * t z i ^ 2 ≤ (∑ j, w j) * ∑ j, w j * ((z i - x j i) / l ^ 2) ^ 2 := by
    intro i
    rw [← mul_pow, h1]
    have := Finset.sum_mul_sq_le_sq_mul_sq Finset.univ (fun j => Real.sqrt (w j)) (fun j => Real.sqrt (w j) * (-((z i - x j i) / l ^ 2)))
    have e1 : ∀ j, Real.sqrt (w j) * (Real.sqrt (w j) * (-((z i - x j i) / l ^ 2))) = w j * (-((z i - x j i) / l ^ 2)) := fun j => by
      rw [← mul_assoc, Real.mul_self_sqrt (hwp j).le]
    have e2 : ∀ j, Real.sqrt (w j) ^ 2 = w j := fun j => Real.sq_sqrt (hwp j).le
    simp only [e1, mul_pow, e2, neg_sq] at this
    exact this
  have h3 : (∑ j, w j) ^ 2 * ∑ i, t z i ^ 2 ≤ (∑ j, w j) ^ 2 * (D / l ^ 4) := by
    rw [Finset.mul_sum]
    calc ∑ i, (∑ j, w j) ^ 2 * t z i ^ 2 ≤ ∑ i, (∑ j, w j) * ∑ j, w j * ((z i - x j i) / l ^ 2) ^ 2 := Finset.sum_le_sum fun i _ => h2 i
      _ = (∑ j, w j) * ∑ j, w j * ((∑ i, (z i - x j i) ^ 2) / l ^ 4) := by
          rw [← Finset.mul_sum, Finset.sum_comm]
          congr 1
          refine Finset.sum_congr rfl fun j _ => ?_
          rw [← Finset.mul_sum, Finset.sum_div]
          congr 1
          exact Finset.sum_congr rfl fun i _ => by rw [div_pow]; congr 1; ring
      _ ≤ (∑ j, w j) * ∑ j, w j * (D / l ^ 4) := by
          refine mul_le_mul_of_nonneg_left (Finset.sum_le_sum fun j _ => mul_le_mul_of_nonneg_left ?_ (hwp j).le) hW.le
          exact div_le_div_of_nonneg_right (hD j) (by positivity)
      _ = _ := by rw [← Finset.sum_mul]; ring
  exact le_of_mul_le_mul_left h3 (by positivity)

end HerdingExamples

/-- C86, `herding_stein_weighted_ssm`: whatever the score function that training gives, the example reports the discrepancy of `size` rows with weights on the simplex under the Gaussian kernel.  What is made small is
the discrepancy under the Stein kernel: with weights it is not more than without, and without at most `(d/(2l²) + S) / size`, if the score is at most `√S` on the data. -/
theorem C86_stein (big : ℝ) (matcher : ℝ → {m : ℕ} → (Fin m → Vec d) → Except Err (Vec d → Vec d)) (qp : SimplexQP ℝ) (hqp : QPContract qp) (eps : ℝ) (heps : 0 ≤ eps) (size : ℕ) (hsize : 0 < size)
    (hle : size ≤ n) (x : Fin n → Vec d) (idx : Fin (selectionSize n) → Fin n) (ord : List (Fin (size + (size - size)))) (hord : ∀ t, t ∈ ord) (l : ℝ) (hl : Spread x idx l)
    (score : Vec d → Vec d) (hscore : matcher l (fun t => x (idx t)) = .ok score) (S : ℝ) (hS : ∀ j, ∑ i, score (x j) i ^ 2 ≤ S) :
    ∃ (f : Fin size → Fin n) (w : Fin size → ℝ), (∀ t, 0 ≤ w t) ∧ ∑ t, w t = 1 ∧
      steinExample big matcher qp eps size x idx ord = .ok (some (reported l x f w)) ∧
      mmdSq (KExpr.stein (.pcimq l 1) score : KExpr d).sem.compute x (fun _ => 1) (fun t => x (f t)) w ≤
        mmdSq (KExpr.stein (.pcimq l 1) score : KExpr d).sem.compute x (fun _ => 1) (fun t => x (f t)) (fun _ => 1) ∧
      mmdSq (KExpr.stein (.pcimq l 1) score : KExpr d).sem.compute x (fun _ => 1) (fun t => x (f t)) (fun _ => 1) ≤ (d / (2 * l ^ 2) + S) / size := by
  have hpsd := stein_psd hl.2 score
  obtain ⟨f, w, h1, h2, -, h4, h5, h6⟩ := run_some qp hqp eps heps big (fun l => .stein (.pcimq l 1) score) size hsize hle x idx ord hord l hl (stein_check hl.2 score) hpsd
    (d / (2 * l ^ 2) + S) (fun j => by
      rw [stein_diag hl.2]
      have := hS j
      linarith)
  refine ⟨f, w, h1, h2, ?_, h5, h6.trans ?_⟩
  · unfold steinExample
    simp only [hl.1, hscore, bind, Except.bind, h4]
  · refine div_le_div_of_nonneg_right ?_ (Nat.cast_nonneg _)
    have : 0 ≤ pairMean (KExpr.stein (.pcimq l 1) score : KExpr d).sem.compute x := by
      have := hpsd.2 n x (fun _ => 1)
      simp only [one_mul] at this
      exact div_nonneg this (by positivity)
    linarith

/-- C86, `herding_stein_weighted`: with the score of the kernel density estimate the example always gives a result, and the discrepancy under the Stein kernel is at most `(d/(2l²) + D/l⁴) / size` for data whose squared
distances are at most `D`. -/
theorem C86_stein_kde (big : ℝ) (qp : SimplexQP ℝ) (hqp : QPContract qp) (eps : ℝ) (heps : 0 ≤ eps) (size : ℕ) (hsize : 0 < size)
    (hle : size ≤ n) (x : Fin n → Vec d) (idx : Fin (selectionSize n) → Fin n) (ord : List (Fin (size + (size - size)))) (hord : ∀ t, t ∈ ord) (l : ℝ) (hl : Spread x idx l)
    (D : ℝ) (hD : ∀ i j, ∑ c, (x i c - x j c) ^ 2 ≤ D) :
    ∃ (score : Vec d → Vec d) (f : Fin size → Fin n) (w : Fin size → ℝ), kdeMatch big l (fun t => x (idx t)) = .ok score ∧ (∀ t, 0 ≤ w t) ∧ ∑ t, w t = 1 ∧
      steinExample big (fun l => kdeMatch big l) qp eps size x idx ord = .ok (some (reported l x f w)) ∧
      mmdSq (KExpr.stein (.pcimq l 1) score : KExpr d).sem.compute x (fun _ => 1) (fun t => x (f t)) w ≤ (d / (2 * l ^ 2) + D / l ^ 4) / size := by
  have hn : 0 < n := NeZero.pos n
  have hsel : 0 < selectionSize n := by
    unfold selectionSize
    omega
  obtain ⟨score, hs, hgrad⟩ := (C42_kde_match big l hl.2 hsel (fun t => x (idx t)) 1 one_pos).1
  have hsc := SteinMean.kde_isScore hsel (fun t => x (idx t)) hgrad
  obtain ⟨f, w, h1, h2, h3, h4, h5⟩ := C86_stein big (fun l => kdeMatch big l) qp hqp eps heps size hsize hle x idx ord hord l hl score hs (D / l ^ 4)
    (fun j => kde_score_le hsel hl.2 _ hsc (x j) D fun t => hD j (idx t))
  exact ⟨score, f, w, hs, h1, h2, h3, h4.trans h5⟩

end

example (big : ℝ) (qp : SimplexQP ℝ) (hqp : QPContract qp) (idx : Fin (selectionSize 3) → Fin 3) (hidx : Function.Injective idx) (ord : List (Fin (2 + (2 - 2)))) (hord : ∀ t, t ∈ ord) :
    ∃ v, steinExample big (fun l => kdeMatch big l) qp (1 / 10 ^ 10) 2 (fun (i : Fin 3) (_ : Fin 1) => ((i : ℕ) : ℝ)) idx ord = .ok (some v) := by
  obtain ⟨l, hl⟩ := example_spread idx hidx
  obtain ⟨score, f, w, -, -, -, h, -⟩ := C86_stein_kde big qp hqp (1 / 10 ^ 10) (by positivity) 2 (by norm_num) (by norm_num) _ idx ord hord l hl 4 (fun i j => by
    fin_cases i <;> fin_cases j <;> norm_num)
  exact ⟨_, h⟩

/-- A training that gives the score of the standard normal distribution. -/
example (big : ℝ) (qp : SimplexQP ℝ) (hqp : QPContract qp) (idx : Fin (selectionSize 3) → Fin 3) (hidx : Function.Injective idx) (ord : List (Fin (2 + (2 - 2)))) (hord : ∀ t, t ∈ ord) :
    ∃ v, steinExample big (fun _ _ _ => .ok fun z => -z) qp 0 2 (fun (i : Fin 3) (_ : Fin 1) => ((i : ℕ) : ℝ)) idx ord = .ok (some v) := by
  obtain ⟨l, hl⟩ := example_spread idx hidx
  obtain ⟨f, w, -, -, h, -⟩ := C86_stein big (fun _ _ _ => .ok fun z => -z) qp hqp 0 le_rfl 2 (by norm_num) (by norm_num) _ idx ord hord l hl (fun z => -z) rfl 4 (fun j => by
    fin_cases j <;> norm_num)
  exact ⟨_, h⟩

end Coreax
