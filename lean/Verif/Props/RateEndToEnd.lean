import Verif.Props.SteinRate
import Verif.Props.SteinKernel

/-!
# C48, C49: the rates for the values that `MMD.compute` and `KSD.compute` return, with the kernels of the library
-/

set_option linter.unusedSectionVars false

namespace Coreax

open Greedy Spec

variable {d n : ℕ} [NeZero n]

/-- `MMD.compute` between the data and the points of a herding coreset, for every kernel that can be constructed. -/
theorem C48_mmd_compute (big : ℝ) (K : KExpr d) (hc : K.check = .ok ()) (hd : K.PsdDomain) (unique : Bool)
    (bs bs' : PyTree (Option ℤ)) (hbs : ValidBlock bs) (hbs' : ValidBlock bs') (size : ℕ) (hsize : 0 < size) (pre : Data n (Vec d) ℝ)
    (hw0 : ∀ j, 0 ≤ pre.weights j) (hu : unique = true → UniformWeights pre.weights) (hpos : PosCount pre.weights size)
    (ord : List (Fin (size + (size - size)))) (hord : ∀ t, t ∈ ord)
    (R : ℝ) (hR : ∀ j, 0 < pre.weights j → K.sem.compute (pre.data j) (pre.data j) ≤ R) :
    ∃ f : Fin size → Fin n, ∃ st r, herdingReduce big K.sem.compute none unique bs size pre none ord
        = .ok (⟨fun t => (f t : ℤ), fun _ => 1⟩, st) ∧
      mmdCompute big K.sem.compute pre ⟨fun t => pre.data (f t), fun _ => 1⟩ bs' = .ok r ∧ r ≤ Real.sqrt (R / size) := by
  have hpsd := C08_psd K hc hd
  have hW : 0 < ∑ j, pre.weights j := by
    obtain ⟨j, hj⟩ := Finset.card_pos.1 (lt_of_lt_of_le hsize hpos)
    exact Finset.sum_pos' (fun i _ => hw0 i) ⟨j, Finset.mem_univ _, (Finset.mem_filter.1 hj).2⟩
  have hs : (0 : ℝ) < size := by positivity
  obtain ⟨f, h1, h2⟩ := C12_reduce_greedy big K.sem.compute hpsd.1 unique bs hbs size hsize pre hW.ne' none (by simp) ord hord hpos
  have hval := C07_compute big K.sem.compute (NeZero.pos n) hsize pre ⟨fun t => pre.data (f t), fun _ => 1⟩ hW.ne'
    (by simp; omega) bs' hbs'
  have hM : 0 ≤ Rate.meanSq K.sem.compute pre.data pre.weights :=
    (Rate.cauchy K.sem.compute hpsd.1 pre.data (hpsd.2 n pre.data) pre.weights (fun _ => 0) 0).1
  have hM' : 0 ≤ avg pre.weights fun i => avg pre.weights fun j => K.sem.compute (pre.data i) (pre.data j) := hM
  have hR0 : 0 ≤ R := by
    obtain ⟨j, hj⟩ := Finset.card_pos.1 (lt_of_lt_of_le hsize hpos)
    refine le_trans ?_ (hR j (Finset.mem_filter.1 hj).2)
    have := hpsd.2 n pre.data (Pi.single j 1)
    simpa [Pi.single_apply] using this
  refine ⟨f, _, _, h1, hval, Real.sqrt_le_sqrt (max_le (by positivity) ?_)⟩
  cases unique with
  | true =>
    refine (Rate.run_unique_le K.sem.compute hpsd.1 pre.data (hpsd.2 n pre.data) pre.weights (hu rfl) R hR hsize f h2).trans ?_
    gcongr
    linarith
  | false =>
    refine (Rate.run_le K.sem.compute hpsd.1 pre.data pre.weights hw0 hW R hR hsize f h2).trans ?_
    gcongr
    linarith

example := C48_mmd_compute (d := 2) (n := 3) 1000 (.squaredExponential 2 1) (by norm_num [KExpr.check, checkPos]; rfl) trivial true (.leaf none) (.leaf (some 2)) (.inl rfl) (.inl rfl) 2 (by norm_num)
  ⟨![![0, 0], ![1, 2], ![3, 4]], fun _ => 1⟩ (fun _ => by norm_num) (fun _ => ⟨1, by norm_num, fun _ => .inr rfl⟩) (by simp [PosCount]) [0, 1] (by decide) 1 (fun _ _ => by simp [KExpr.sem, squaredExponentialSem, sqDist])

/-- `KSD.compute` of a Stein thinning coreset exceeds that of the data by at most `sqrt (R / size)`, for the Stein kernel of every smooth
kernel of the library and every score function. -/
theorem C49_ksd_compute (big : ℝ) (K : KExpr d) (score : Vec d → Vec d) (hc : K.check = .ok ()) (hd : K.PsdDomain) (hs : K.Smooth)
    (unique : Bool) (bs bs' : PyTree (Option ℤ)) (hbs : ValidBlock bs) (hbs' : ValidBlock bs') (size : ℕ) (hsize : 0 < size)
    (pre : Data n (Vec d) ℝ) (hw0 : ∀ j, 0 ≤ pre.weights j) (hu : unique = true → UniformWeights pre.weights)
    (hpos : PosCount pre.weights size) (ord : List (Fin (size + (size - size)))) (hord : ∀ t, t ∈ ord)
    (R : ℝ) (hR : ∀ j, 0 < pre.weights j → (KExpr.stein K score).sem.compute (pre.data j) (pre.data j) ≤ R) :
    ∃ f : Fin size → Fin n, ∃ r r',
      steinReduce big (KExpr.stein K score).sem.compute unique bs size pre none ord = .ok ⟨fun t => (f t : ℤ), fun _ => 1⟩ ∧
      ksdCompute big (KExpr.stein K score).sem.compute ⟨fun t => pre.data (f t), fun _ => (1 : ℝ)⟩ bs' none none = .ok r ∧
      ksdCompute big (KExpr.stein K score).sem.compute pre bs' none none = .ok r' ∧
      r ≤ r' + Real.sqrt (R / size) := by
  have hpsd := C35_psd K score hc hd hs
  set k := (KExpr.stein K score).sem.compute with hk
  have hW : 0 < ∑ j, pre.weights j := by
    obtain ⟨j, hj⟩ := Finset.card_pos.1 (lt_of_lt_of_le hsize hpos)
    exact Finset.sum_pos' (fun i _ => hw0 i) ⟨j, Finset.mem_univ _, (Finset.mem_filter.1 hj).2⟩
  have key : ∃ f : Fin size → Fin n, steinReduce big k unique bs size pre none ord = .ok ⟨fun t => (f t : ℤ), fun _ => 1⟩ ∧
      ksd k (fun t => pre.data (f t)) (fun _ => 1) ≤ ksd k pre.data pre.weights + Real.sqrt (R / size) := by
    cases unique with
    | true => exact C49_stein_rate_unique big k hpsd.1 bs hbs size hsize pre (hpsd.2 n pre.data) (hu rfl) ord hord hpos R hR
    | false =>
      obtain ⟨f, h1, h2⟩ := C49_stein_rate big k hpsd.1 bs hbs size hsize pre (hpsd.2 n pre.data) ord hord hpos
      refine ⟨f, h1, (h2 pre.weights hw0 hW fun _ h => h).trans ?_⟩
      gcongr
      exact Rate.avg_le pre.weights hw0 hW _ R hR
  obtain ⟨f, h1, h2⟩ := key
  refine ⟨f, _, _, h1, (C35_ksd_norm big k hpsd hsize ⟨fun t => pre.data (f t), fun _ => (1 : ℝ)⟩ (by simp; omega) bs' hbs').1,
    (C35_ksd_norm big k hpsd (NeZero.pos n) pre hW.ne' bs' hbs').1, h2⟩

/-- The hypotheses are met: five points of the plane with a zero-weight row, a product kernel of the library, coresets of three points. -/
example : let K : KExpr 2 := .mul (.pcimq 1 2) (.power (.linear 1 1) (.int 2))
    let pre : Data 5 (Vec 2) ℝ := ⟨fun i _ => (i : ℕ), ![1, 1, 0, 1, 1]⟩
    K.check = .ok () ∧ K.PsdDomain ∧ K.Smooth ∧ UniformWeights pre.weights ∧ (∀ j, 0 ≤ pre.weights j) ∧ PosCount pre.weights 3 ∧
      ValidBlock (.leaf (some 2)) ∧ ∃ R, ∀ j, 0 < pre.weights j → K.sem.compute (pre.data j) (pre.data j) ≤ R := by
  intro K pre
  have hw : ∀ j, pre.weights j = 0 ∨ pre.weights j = 1 := by
    intro j; fin_cases j <;> simp [pre]
  refine ⟨?_, ⟨trivial, trivial⟩, ⟨trivial, trivial, Or.inl ?_⟩, ⟨1, one_pos, hw⟩, ?_, ?_, Or.inl rfl,
    ⟨∑ j, |K.sem.compute (pre.data j) (pre.data j)|, fun j _ => ?_⟩⟩
  · norm_num [K, KExpr.check, checkPos, checkNonneg, checkIntGe, Bind.bind, Except.bind]
  · simp [PyNum.toInt]
  · intro j; rcases hw j with h | h <;> rw [h]
    exact zero_le_one
  · unfold PosCount
    have : ({0, 1, 3} : Finset (Fin 5)) ⊆ Finset.univ.filter (fun j => 0 < pre.weights j) := by
      intro j hj
      fin_cases hj <;> simp [pre]
    exact le_trans (by decide) (Finset.card_le_card this)
  · exact (le_abs_self _).trans (Finset.single_le_sum (f := fun j => |K.sem.compute (pre.data j) (pre.data j)|) (fun i _ => abs_nonneg _) (Finset.mem_univ j))

/-- The inverse quadratic kernel on five weighted rationals: `unique=False` repeats the heavy point, and the bound holds with room. -/
example : resultIdx (herdingReduce (n := 5) 1000 invQuad none false (.leaf (some 2)) 4
    ⟨![0, 1, 3, 7, 2], ![6, 2, 1, 0, 1]⟩ none [0, 1, 2, 3]) = some [0, 1, 0, 2] ∧
    (∀ j, (0 : ℚ) ≤ (![6, 2, 1, 0, 1] : Fin 5 → ℚ) j) ∧ (∀ a, invQuad a a ≤ 1) ∧
    mmdSq invQuad (![0, 1, 3, 7, 2] : Fin 5 → ℚ) ![6, 2, 1, 0, 1] ![0, 1, 0, 3] (fun _ => 1)
      ≤ (1 - avg ![6, 2, 1, 0, 1] fun i => avg ![6, 2, 1, 0, 1] fun j => invQuad ((![0, 1, 3, 7, 2] : Fin 5 → ℚ) i) (![0, 1, 3, 7, 2] j)) / 4 :=
  ⟨by decide +kernel, by decide +kernel, fun a => by simp [invQuad], by decide +kernel⟩

end Coreax
