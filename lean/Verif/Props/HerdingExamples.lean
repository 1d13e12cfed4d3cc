import Verif.Model.HerdingExamples
import Verif.Props.Pounce
import Verif.Props.Reweighting
import Verif.Props.HerdingRate
import Verif.Props.Equivariance
import Verif.Props.ApproxHerding
import Verif.Props.Approximation

/-!
# C86: what the herding examples report
-/

set_option linter.unusedSectionVars false

namespace Coreax

open Spec

namespace HerdingExamples
variable {X : Type}

theorem avg_add {n : ℕ} (w : Fin n → ℝ) (f g : Fin n → ℝ) : avg w (fun i => f i + g i) = avg w f + avg w g := by
  unfold avg
  rw [← add_div, ← Finset.sum_add_distrib]
  congr 1
  exact Finset.sum_congr rfl fun i _ => by ring

theorem avg_smul {n : ℕ} (w : Fin n → ℝ) (c : ℝ) (f : Fin n → ℝ) : avg w (fun i => c * f i) = c * avg w f := by
  unfold avg
  rw [← mul_div_assoc, Finset.mul_sum]
  congr 1
  exact Finset.sum_congr rfl fun i _ => by ring

theorem mmdSq_add (k k' : X → X → ℝ) {n m : ℕ} (x : Fin n → X) (w : Fin n → ℝ) (y : Fin m → X) (v : Fin m → ℝ) :
    mmdSq (fun a b => k a b + k' a b) x w y v = mmdSq k x w y v + mmdSq k' x w y v := by
  unfold mmdSq
  simp only [avg_add]
  ring

theorem mmdSq_smul (c : ℝ) (k : X → X → ℝ) {n m : ℕ} (x : Fin n → X) (w : Fin n → ℝ) (y : Fin m → X) (v : Fin m → ℝ) :
    mmdSq (fun a b => c * k a b) x w y v = c * mmdSq k x w y v := by
  unfold mmdSq
  simp only [avg_smul]
  ring

theorem mmdSq_nonneg {k : X → X → ℝ} (hk : IsPSD k) {n m : ℕ} (x : Fin n → X) (w : Fin n → ℝ) (y : Fin m → X) (v : Fin m → ℝ) :
    0 ≤ mmdSq k x w y v := by
  obtain ⟨H, i1, i2, φ, hφ⟩ := hk.exists_feature
  rw [mmdSq_eq_norm φ hφ]
  positivity

theorem psd_of_sub {k g : X → X → ℝ} (hg : IsPSD g) (h : IsPSD fun a b => k a b - g a b) : IsPSD k := by
  have := hg.add h
  have e : (fun a b => g a b + (k a b - g a b)) = k := by funext a b; ring
  rwa [e] at this

/-- A kernel that exceeds another by a positive semi-definite one gives the greater discrepancy. -/
theorem mmdSq_le {k g : X → X → ℝ} (h : IsPSD fun a b => k a b - g a b) {n m : ℕ} (x : Fin n → X) (w : Fin n → ℝ) (y : Fin m → X) (v : Fin m → ℝ) :
    mmdSq g x w y v ≤ mmdSq k x w y v := by
  have h1 := mmdSq_nonneg h x w y v
  have h2 := mmdSq_add g (fun a b => k a b - g a b) x w y v
  have e : (fun a b => g a b + (k a b - g a b)) = k := by funext a b; ring
  rw [e] at h2
  linarith

theorem finiteValues_fin {m : ℕ} (v : Fin m → ℝ) : finiteValues (fun i => .fin (v i)) = some v := by
  unfold finiteValues
  exact if_pos fun i => rfl

end HerdingExamples

open HerdingExamples

section
variable {d n : ℕ} [NeZero n]

/-- The discrepancy under the reference kernel, without reference to the code: that of the Gaussian kernel, divided by `l √(2π)`. -/
noncomputable def Spec.reported (l : ℝ) (x : Fin n → Vec d) {size : ℕ} (f : Fin size → Fin n) (w : Fin size → ℝ) : ℝ :=
  Real.sqrt (mmdSq (fun a b => Real.exp (-(∑ i, (a i - b i) ^ 2) / (2 * l ^ 2))) x (fun _ => 1) (fun t => x (f t)) w / (l * Real.sqrt (2 * Real.pi)))

/-- The average of a kernel over all pairs of rows. -/
noncomputable def Spec.pairMean (k : Vec d → Vec d → ℝ) (x : Fin n → Vec d) : ℝ := (∑ i, ∑ j, k (x i) (x j)) / (n : ℝ) ^ 2

namespace HerdingExamples

theorem gauss_eq (l : ℝ) : (fun a b : Vec d => Real.exp (-(∑ i, (a i - b i) ^ 2) / (2 * l ^ 2))) = (basicKernel l : KExpr d).sem.compute := by
  funext a b
  show _ = 1 * Real.exp (-sqDist a b / _)
  rw [one_mul]
  simp only [sqDist, pow_two]

theorem basic_check {l : ℝ} (hl : 0 < l) : (basicKernel l : KExpr d).check = .ok () := by
  simp only [basicKernel, KExpr.check, checkPos, if_neg (not_le.2 hl), if_neg (not_le.2 (one_pos : (0 : ℝ) < 1))]
  rfl

theorem duo_check {l : ℝ} (hl : 0 < l) : (duoKernel l : KExpr d).check = .ok () := by
  simp only [duoKernel, KExpr.check, checkPos, if_neg (not_le.2 hl), if_neg (not_le.2 (one_pos : (0 : ℝ) < 1))]
  rfl

theorem compute_reference (big : ℝ) {l : ℝ} (hl : 0 < l) (x : Fin n → Vec d) {size : ℕ} (hsize : 0 < size) (f : Fin size → Fin n) (w : Fin size → ℝ)
    (hw : ∑ t, w t ≠ 0) :
    mmdCompute big (pounceReference l : KExpr d).sem.compute (Data.ofArray (K := ℝ) x)
      ⟨((Data.ofArray (K := ℝ) x).getItem fun t => ((f t : ℕ) : ℤ)).data, w⟩ (.leaf none) = .ok (reported l x f w) := by
  have hn : 0 < n := NeZero.pos n
  have hx : ∑ j, (Data.ofArray (K := ℝ) x).weights j ≠ 0 := by
    simp only [Data.ofArray, Finset.sum_const, Finset.card_univ, Fintype.card_fin, nsmul_eq_mul, mul_one]
    exact_mod_cast hn.ne'
  have hdat : ((Data.ofArray (K := ℝ) x).getItem fun t => ((f t : ℕ) : ℤ)).data = fun t => x (f t) := by
    funext t
    simp only [Data.getItem, gatherIdx_coe, Data.ofArray]
  have href : (pounceReference l : KExpr d).sem.compute = fun a b => 1 / (l * Real.sqrt (2 * Real.pi)) * (basicKernel l : KExpr d).sem.compute a b := by
    funext a b
    show _ * Real.exp _ = _ * (1 * Real.exp _)
    rw [one_mul]
  rw [C07_compute big _ hn hsize _ _ hx hw _ (Or.inl rfl), hdat, href, mmdSq_smul]
  unfold reported
  rw [gauss_eq, div_mul_eq_mul_div, one_mul, max_eq_right]
  · rfl
  · exact div_nonneg (mmdSq_nonneg (C08_psd _ (basic_check hl) trivial) _ _ _ _) (by positivity)

theorem pairMean_eq (k : Vec d → Vec d → ℝ) (x : Fin n → Vec d) :
    (avg (fun _ : Fin n => (1 : ℝ)) fun i => avg (fun _ : Fin n => (1 : ℝ)) fun j => k (x i) (x j)) = pairMean k x := by
  unfold avg pairMean
  simp only [one_mul, Finset.sum_const, Finset.card_univ, Fintype.card_fin, nsmul_eq_mul, mul_one]
  rw [← Finset.sum_div, div_div, pow_two]

/-- Without weights optimiser. -/
theorem run_none (big : ℝ) (make : ℝ → KExpr d) (size : ℕ) (hsize : 0 < size) (hle : size ≤ n) (x : Fin n → Vec d) (idx : Fin (selectionSize n) → Fin n)
    (ord : List (Fin (size + (size - size)))) (hord : ∀ t, t ∈ ord) (l : ℝ) (hl : Spread x idx l) (hc : (make l).check = .ok ())
    (hpsd : IsPSD (make l).sem.compute) (R : ℝ) (hR : ∀ j, (make l).sem.compute (x j) (x j) ≤ R) :
    ∃ f : Fin size → Fin n, ∃ st, herdingReduce big (make l).sem.compute none true (.leaf none) size (Data.ofArray x) none ord
        = .ok (⟨fun t => (f t : ℤ), fun _ => 1⟩, st) ∧
      herdingExample big make none size x idx ord = .ok (some (reported l x f fun _ => 1)) ∧
      mmdSq (make l).sem.compute x (fun _ => 1) (fun t => x (f t)) (fun _ => 1) ≤ (R - pairMean (make l).sem.compute x / 2) / size := by
  obtain ⟨f, st, h1, h2⟩ := C48_herding_rate_unique big (make l).sem.compute hpsd.1 (.leaf none) (Or.inl rfl) size hsize (Data.ofArray x)
    (fun c => hpsd.2 n x c) ⟨1, zero_lt_one, fun i => Or.inr rfl⟩ (by simpa [PosCount, Data.ofArray] using hle) none (fun l h => by simp at h) ord hord R (fun j _ => hR j)
  refine ⟨f, st, h1, ?_, h2.trans_eq ?_⟩
  · unfold herdingExample
    simp only [hl.1, hc, h1, bind, Except.bind, Pounce.reference_ok hl.2,
      compute_reference big hl.2 x hsize f (fun _ => 1) (by simp; omega)]
  · rw [← pairMean_eq]
    rfl

end HerdingExamples

/-- C86: the value reported for kernel herding, for the plain example and for the composite kernel, and in general for any kernel that exceeds the Gaussian kernel by a positive
semi-definite kernel and is at most `R` on the diagonal: it is the discrepancy of the selected rows, at most `√((R - mean/2) / (size l √(2π)))`. -/
theorem C86_dominating (big : ℝ) (make : ℝ → KExpr d) (size : ℕ) (hsize : 0 < size) (hle : size ≤ n) (x : Fin n → Vec d) (idx : Fin (selectionSize n) → Fin n)
    (ord : List (Fin (size + (size - size)))) (hord : ∀ t, t ∈ ord) (l : ℝ) (hl : Spread x idx l) (hc : (make l).check = .ok ())
    (hpsd : IsPSD fun a b => (make l).sem.compute a b - Real.exp (-(∑ i, (a i - b i) ^ 2) / (2 * l ^ 2))) (R : ℝ) (hR : ∀ a, (make l).sem.compute a a ≤ R) :
    ∃ f : Fin size → Fin n, herdingExample big make none size x idx ord = .ok (some (reported l x f fun _ => 1)) ∧
      reported l x f (fun _ => 1) ≤ Real.sqrt ((R - pairMean (make l).sem.compute x / 2) / (size * (l * Real.sqrt (2 * Real.pi)))) := by
  have hg : IsPSD fun a b : Vec d => Real.exp (-(∑ i, (a i - b i) ^ 2) / (2 * l ^ 2)) := by
    rw [gauss_eq]; exact C08_psd _ (basic_check hl.2) trivial
  have hmake : IsPSD (make l).sem.compute := psd_of_sub hg hpsd
  obtain ⟨f, st, -, h2, h3⟩ := run_none big make size hsize hle x idx ord hord l hl hc hmake R fun j => hR _
  refine ⟨f, h2, Real.sqrt_le_sqrt ?_⟩
  have hp : 0 < l * Real.sqrt (2 * Real.pi) := mul_pos hl.2 (Real.sqrt_pos.2 (by positivity))
  exact (div_le_div_of_nonneg_right ((mmdSq_le hpsd x (fun _ => 1) (fun t => x (f t)) (fun _ => 1)).trans h3) hp.le).trans_eq (div_div _ _ _)

/-- C86, `herding_basic`: at most `√(1 / (size l √(2π)))`, and less by half the mean of the kernel. -/
theorem C86_basic (big : ℝ) (size : ℕ) (hsize : 0 < size) (hle : size ≤ n) (x : Fin n → Vec d) (idx : Fin (selectionSize n) → Fin n)
    (ord : List (Fin (size + (size - size)))) (hord : ∀ t, t ∈ ord) (l : ℝ) (hl : Spread x idx l) :
    ∃ f : Fin size → Fin n, herdingExample big basicKernel none size x idx ord = .ok (some (reported l x f fun _ => 1)) ∧
      reported l x f (fun _ => 1) ≤ Real.sqrt ((1 - pairMean (fun a b => Real.exp (-(∑ i, (a i - b i) ^ 2) / (2 * l ^ 2))) x / 2) / (size * (l * Real.sqrt (2 * Real.pi)))) := by
  have := C86_dominating big basicKernel size hsize hle x idx ord hord l hl (basic_check hl.2) (by
    have : (fun a b : Vec d => (basicKernel l : KExpr d).sem.compute a b - Real.exp (-(∑ i, (a i - b i) ^ 2) / (2 * l ^ 2))) = fun _ _ => 0 := by
      rw [← gauss_eq]; funext a b; exact sub_self _
    rw [this]; exact isPSD_const le_rfl) 1 (fun a => by rw [← gauss_eq]; simp)
  rwa [← gauss_eq] at this

/-- C86, `herding_duo_composite_kernel`: at most `√(2 / (size l √(2π)))`, although the points are chosen for another kernel than that by which they are judged. -/
theorem C86_composite (big : ℝ) (size : ℕ) (hsize : 0 < size) (hle : size ≤ n) (x : Fin n → Vec d) (idx : Fin (selectionSize n) → Fin n)
    (ord : List (Fin (size + (size - size)))) (hord : ∀ t, t ∈ ord) (l : ℝ) (hl : Spread x idx l) :
    ∃ f : Fin size → Fin n, herdingExample big duoKernel none size x idx ord = .ok (some (reported l x f fun _ => 1)) ∧
      reported l x f (fun _ => 1) ≤ Real.sqrt (2 / (size * (l * Real.sqrt (2 * Real.pi)))) := by
  have hsum : ∀ a b : Vec d, (duoKernel l : KExpr d).sem.compute a b = Real.exp (-(∑ i, (a i - b i) ^ 2) / (2 * l ^ 2)) +
      (KExpr.mul (.pcimq l 1) (.laplacian l 1) : KExpr d).sem.compute a b := by
    intro a b
    rw [congrFun (congrFun (gauss_eq l) a) b]
    rfl
  have hmulc : (KExpr.mul (.pcimq l 1) (.laplacian l 1) : KExpr d).check = .ok () := by
    simp only [KExpr.check, checkPos, if_neg (not_le.2 hl.2), if_neg (not_le.2 (one_pos : (0 : ℝ) < 1))]
    rfl
  have hpsd : IsPSD (KExpr.mul (.pcimq l 1) (.laplacian l 1) : KExpr d).sem.compute := C08_psd _ hmulc ⟨trivial, trivial⟩
  have hduo : IsPSD (duoKernel l : KExpr d).sem.compute := C08_psd _ (duo_check hl.2) ⟨trivial, trivial, trivial⟩
  obtain ⟨f, h1, h2⟩ := C86_dominating big duoKernel size hsize hle x idx ord hord l hl (duo_check hl.2) (by
    have : (fun a b : Vec d => (duoKernel l : KExpr d).sem.compute a b - Real.exp (-(∑ i, (a i - b i) ^ 2) / (2 * l ^ 2))) =
        (KExpr.mul (.pcimq l 1) (.laplacian l 1) : KExpr d).sem.compute := by
      funext a b; rw [hsum]; ring
    rw [this]; exact hpsd) 2 (fun a => by
      rw [hsum]
      have h1 : (KExpr.mul (.pcimq l 1) (.laplacian l 1) : KExpr d).sem.compute a a = 1 := by
        rw [mulSem_compute_eq]
        show 1 / Real.sqrt (1 + sqDist a a / (2 * l ^ 2)) * (1 * Real.exp (-nrm1 a a / (2 * l ^ 2))) = 1
        simp [sqDist, nrm1]
      rw [h1]
      simp
      norm_num)
  refine ⟨f, h1, h2.trans (Real.sqrt_le_sqrt ?_)⟩
  have hp : 0 < l * Real.sqrt (2 * Real.pi) := mul_pos hl.2 (Real.sqrt_pos.2 (by positivity))
  have hs : (0 : ℝ) < size := by exact_mod_cast hsize
  refine div_le_div_of_nonneg_right ?_ (by positivity)
  have : 0 ≤ pairMean (duoKernel l : KExpr d).sem.compute x := by
    have := hduo.2 n x (fun _ => 1)
    simp only [one_mul] at this
    exact div_nonneg this (by positivity)
  linarith

/-- With a weights optimiser. -/
theorem HerdingExamples.run_some (qp : SimplexQP ℝ) (hqp : QPContract qp) (eps : ℝ) (heps : 0 ≤ eps) (big : ℝ) (make : ℝ → KExpr d) (size : ℕ) (hsize : 0 < size) (hle : size ≤ n)
    (x : Fin n → Vec d) (idx : Fin (selectionSize n) → Fin n) (ord : List (Fin (size + (size - size)))) (hord : ∀ t, t ∈ ord) (l : ℝ) (hl : Spread x idx l)
    (hc : (make l).check = .ok ()) (hpsd : IsPSD (make l).sem.compute) (R : ℝ) (hR : ∀ j, (make l).sem.compute (x j) (x j) ≤ R) :
    ∃ (f : Fin size → Fin n) (w : Fin size → ℝ), (∀ t, 0 ≤ w t) ∧ ∑ t, w t = 1 ∧
      herdingExample big make none size x idx ord = .ok (some (reported l x f fun _ => 1)) ∧
      herdingExample big make (some (qp, eps)) size x idx ord = .ok (some (reported l x f w)) ∧
      mmdSq (make l).sem.compute x (fun _ => 1) (fun t => x (f t)) w ≤ mmdSq (make l).sem.compute x (fun _ => 1) (fun t => x (f t)) (fun _ => 1) ∧
      mmdSq (make l).sem.compute x (fun _ => 1) (fun t => x (f t)) (fun _ => 1) ≤ (R - pairMean (make l).sem.compute x / 2) / size := by
  have hn : 0 < n := NeZero.pos n
  obtain ⟨f, st, h1, h2, h3⟩ := run_none big make size hsize hle x idx ord hord l hl hc hpsd R hR
  have hdat : ((Data.ofArray (K := ℝ) x).getItem fun t => ((f t : ℕ) : ℤ)).data = fun t => x (f t) := by
    funext t
    simp only [Data.getItem, gatherIdx_coe, Data.ofArray]
  obtain ⟨w, h4, h5, h6⟩ := C64_never_worse (Y := Unit) qp hqp big (make l).sem.compute hpsd.1 hn hsize ⟨Data.ofArray x, none⟩
    ⟨⟨((Data.ofArray (K := ℝ) x).getItem fun t => ((f t : ℕ) : ℤ)).data, fun _ => 1⟩, none⟩ rfl rfl eps heps (fun v => hpsd.2 _ _ v) (.leaf none) (Or.inl rfl)
  refine ⟨f, w, h5.1, h5.2, h2, ?_, ?_, h3⟩
  · unfold herdingExample
    simp only [hl.1, hc, h1, bind, Except.bind, h4, finiteValues_fin, Pounce.reference_ok hl.2,
      compute_reference big hl.2 x hsize f w (by rw [h5.2]; exact one_ne_zero)]
  · simp only [hdat] at h6
    exact h6

/-- C86, `herding_basic_weighted` and `herding_refine_weighted`: with a solver that solves the quadratic programme, whatever the regularisation, the value reported is at most that of the
plain example with the same data, and of course meets the same bound. -/
theorem C86_weighted (qp : SimplexQP ℝ) (hqp : QPContract qp) (eps : ℝ) (heps : 0 ≤ eps) (big : ℝ) (size : ℕ) (hsize : 0 < size) (hle : size ≤ n) (x : Fin n → Vec d)
    (idx : Fin (selectionSize n) → Fin n) (ord : List (Fin (size + (size - size)))) (hord : ∀ t, t ∈ ord) (l : ℝ) (hl : Spread x idx l) :
    ∃ (f : Fin size → Fin n) (w : Fin size → ℝ), (∀ t, 0 ≤ w t) ∧ ∑ t, w t = 1 ∧
      herdingExample big basicKernel none size x idx ord = .ok (some (reported l x f fun _ => 1)) ∧
      herdingExample big basicKernel (some (qp, eps)) size x idx ord = .ok (some (reported l x f w)) ∧
      reported l x f w ≤ reported l x f fun _ => 1 := by
  have hpsd : IsPSD (basicKernel l : KExpr d).sem.compute := C08_psd _ (basic_check hl.2) trivial
  obtain ⟨f, w, h1, h2, h3, h4, h5, -⟩ := run_some qp hqp eps heps big basicKernel size hsize hle x idx ord hord l hl (basic_check hl.2) hpsd 1 (fun a => by rw [← gauss_eq]; simp)
  refine ⟨f, w, h1, h2, h3, h4, ?_⟩
  unfold reported
  refine Real.sqrt_le_sqrt (div_le_div_of_nonneg_right ?_ (mul_pos hl.2 (Real.sqrt_pos.2 (by positivity))).le)
  rw [gauss_eq]
  exact h5

/-- C86, `herding_approximate_gram_matrix`: with fewer rows than training points the example stops with `ValueError`; otherwise it reports the discrepancy of `size` different rows, within the bound of the
plain example up to the error `ε` of the approximated row means. -/
theorem C86_approximate (big : ℝ) (draw : IndexDraw) (lstsq : RectLstsq ℝ) (kernelPoints trainPoints : ℕ) [NeZero kernelPoints] (ht : 0 < trainPoints) (size : ℕ) (hsize : 0 < size) (hle : size ≤ n)
    (x : Fin n → Vec d) (idx : Fin (selectionSize n) → Fin n) (ord : List (Fin (size + (size - size)))) (hord : ∀ t, t ∈ ord) (l : ℝ) (hl : Spread x idx l) :
    (n < trainPoints → approximateExample big draw lstsq kernelPoints trainPoints size x idx ord = .error .valueError) ∧
    (trainPoints ≤ n → ∃ r, annchorRowMean draw lstsq big (basicKernel l : KExpr d).sem.compute kernelPoints trainPoints x = .ok r ∧
      ∃ f : Fin size → Fin n, Function.Injective f ∧ approximateExample big draw lstsq kernelPoints trainPoints size x idx ord = .ok (reported l x f fun _ => 1) ∧
      ∀ ε, (∀ j, |r j - (∑ i, Real.exp (-(∑ c, (x i c - x j c) ^ 2) / (2 * l ^ 2))) / n| ≤ ε) →
        reported l x f (fun _ => 1) ≤ Real.sqrt ((1 - pairMean (fun a b => Real.exp (-(∑ i, (a i - b i) ^ 2) / (2 * l ^ 2))) x / 2 + 2 * ε * (size + 1)) / (size * (l * Real.sqrt (2 * Real.pi))))) := by
  have hpsd : IsPSD (basicKernel l : KExpr d).sem.compute := C08_psd _ (basic_check hl.2) trivial
  obtain ⟨-, -, hf, he⟩ := C32_feasible draw lstsq big (basicKernel l : KExpr d).sem.compute hpsd.1 kernelPoints trainPoints ht x
  have hA := (C63_approx_kernel big (basicKernel l : KExpr d).sem.compute (annchorRowMean draw lstsq big (basicKernel l : KExpr d).sem.compute kernelPoints trainPoints) true (.leaf none) size
    (Data.ofArray x) ord).2 hle
  constructor
  · intro hn
    have hbad : annchorRowMean draw lstsq big (basicKernel l : KExpr d).sem.compute kernelPoints trainPoints x = .error .valueError := by
      rcases h : annchorRowMean draw lstsq big (basicKernel l : KExpr d).sem.compute kernelPoints trainPoints x with e | r
      · rw [he e (Or.inr (Or.inr h))]
      · exact absurd (hf.1 ⟨r, h⟩) (by omega)
    unfold approximateExample
    simp only [hl.1, basic_check hl.2, bind, Except.bind, hA.1 _ hbad]
  · intro hn
    obtain ⟨r, hr⟩ := hf.2 hn
    have hw : PosCount (Data.ofArray (K := ℝ) x).weights size := by simpa [PosCount, Data.ofArray] using hle
    obtain ⟨f, h1, h2⟩ := C63_given_means big (basicKernel l : KExpr d).sem.compute true (.leaf none) (Or.inl rfl) size hsize hle (Data.ofArray x) (by simpa using hw) r ord hord
    have hrun : approximateExample big draw lstsq kernelPoints trainPoints size x idx ord = .ok (reported l x f fun _ => 1) := by
      unfold approximateExample
      simp only [hl.1, basic_check hl.2, bind, Except.bind, hA.2 r hr, h1, Pounce.reference_ok hl.2,
        compute_reference big hl.2 x hsize f (fun _ => 1) (by simp; omega)]
    have hav : ∀ j, avg (fun _ : Fin n => (1 : ℝ)) (fun i => (basicKernel l : KExpr d).sem.compute (x i) (x j)) =
        (∑ i, Real.exp (-(∑ c, (x i c - x j c) ^ 2) / (2 * l ^ 2))) / n := by
      intro j
      rw [← gauss_eq]
      simp [avg]
    have huse : ∀ ε, (∀ j, |r j - (∑ i, Real.exp (-(∑ c, (x i c - x j c) ^ 2) / (2 * l ^ 2))) / n| ≤ ε) → Function.Injective f ∧
        mmdSq (basicKernel l : KExpr d).sem.compute x (fun _ => 1) (fun t => x (f t)) (fun _ => 1) ≤
          (1 - pairMean (basicKernel l : KExpr d).sem.compute x / 2) / size + 2 * ε * (size + 1) / size := by
      intro ε hε
      obtain ⟨g, h3, h4, h5⟩ := C63_error_unique big (basicKernel l : KExpr d).sem.compute hpsd.1 (.leaf none) (Or.inl rfl) size hsize (Data.ofArray x)
        (fun c => hpsd.2 n x c) ⟨1, zero_lt_one, fun i => Or.inr rfl⟩ hw r ε (fun j _ => by
          have := hε j
          rw [← hav] at this
          exact this) ord hord 1 (fun j _ => by rw [← gauss_eq]; simp)
      have hfg : f = g := by
        rw [h1] at h3
        simp only [Except.ok.injEq, Prod.mk.injEq, Data.mk.injEq, and_true] at h3
        funext t
        exact Fin.ext (by exact_mod_cast congrFun h3 t)
      subst hfg
      refine ⟨h4, h5.trans_eq ?_⟩
      rw [← pairMean_eq]
      rfl
    refine ⟨r, hr, f, ?_, hrun, fun ε hε => Real.sqrt_le_sqrt ?_⟩
    · exact (huse (∑ j, |r j - (∑ i, Real.exp (-(∑ c, (x i c - x j c) ^ 2) / (2 * l ^ 2))) / n|) fun j =>
        Finset.single_le_sum (f := fun j => |r j - (∑ i, Real.exp (-(∑ c, (x i c - x j c) ^ 2) / (2 * l ^ 2))) / n|) (fun i _ => abs_nonneg _) (Finset.mem_univ j)).1
    · have hp : 0 < l * Real.sqrt (2 * Real.pi) := mul_pos hl.2 (Real.sqrt_pos.2 (by positivity))
      have := (huse ε hε).2
      rw [← add_div, ← gauss_eq] at this
      exact (div_le_div_of_nonneg_right this hp.le).trans_eq (div_div _ _ _)

end

/-! ### Examples -/

/-- Three distinct rows, whatever the draw; two are asked for. -/
theorem HerdingExamples.example_spread (idx : Fin (selectionSize 3) → Fin 3) (hidx : Function.Injective idx) :
    ∃ l, Spread (fun (i : Fin 3) (_ : Fin 1) => ((i : ℕ) : ℝ)) idx l :=
  C84_spread (by norm_num) _ (fun a b h => by simpa [Fin.ext_iff] using congrFun h 0) idx hidx

example (big : ℝ) (idx : Fin (selectionSize 3) → Fin 3) (hidx : Function.Injective idx) (ord : List (Fin (2 + (2 - 2)))) (hord : ∀ t, t ∈ ord) : ∃ l, 0 < l ∧
    ∃ v, herdingExample big basicKernel none 2 (fun (i : Fin 3) (_ : Fin 1) => ((i : ℕ) : ℝ)) idx ord = .ok (some v) ∧
      ∃ v', herdingExample big duoKernel none 2 (fun (i : Fin 3) (_ : Fin 1) => ((i : ℕ) : ℝ)) idx ord = .ok (some v') ∧
        v' ≤ Real.sqrt (2 / ((2 : ℕ) * (l * Real.sqrt (2 * Real.pi)))) := by
  obtain ⟨l, hl⟩ := example_spread idx hidx
  obtain ⟨f, h1, -⟩ := C86_basic big 2 (by norm_num) (by norm_num) _ idx ord hord l hl
  obtain ⟨g, h2, h3⟩ := C86_composite big 2 (by norm_num) (by norm_num) _ idx ord hord l hl
  exact ⟨l, hl.2, _, h1, _, h2, h3⟩

/-- The kernel of the plain example dominates itself. -/
example (big : ℝ) (idx : Fin (selectionSize 3) → Fin 3) (hidx : Function.Injective idx) (ord : List (Fin (2 + (2 - 2)))) (hord : ∀ t, t ∈ ord) : ∃ l, ∃ f : Fin 2 → Fin 3,
    herdingExample big basicKernel none 2 (fun (i : Fin 3) (_ : Fin 1) => ((i : ℕ) : ℝ)) idx ord = .ok (some (reported l (fun (i : Fin 3) (_ : Fin 1) => ((i : ℕ) : ℝ)) f fun _ => 1)) := by
  obtain ⟨l, hl⟩ := example_spread idx hidx
  obtain ⟨f, h, -⟩ := C86_dominating big basicKernel 2 (by norm_num) (by norm_num) _ idx ord hord l hl (basic_check hl.2) (by
    have : (fun a b : Vec 1 => (basicKernel l : KExpr 1).sem.compute a b - Real.exp (-(∑ i, (a i - b i) ^ 2) / (2 * l ^ 2))) = fun _ _ => 0 := by
      rw [← gauss_eq]; funext a b; exact sub_self _
    rw [this]; exact isPSD_const le_rfl) 1 (fun a => by rw [← gauss_eq]; simp)
  exact ⟨l, f, h⟩

example (qp : SimplexQP ℝ) (hqp : QPContract qp) (big : ℝ) (idx : Fin (selectionSize 3) → Fin 3) (hidx : Function.Injective idx) (ord : List (Fin (2 + (2 - 2))))
    (hord : ∀ t, t ∈ ord) : ∃ v, herdingExample big basicKernel (some (qp, 1 / 10 ^ 10)) 2 (fun (i : Fin 3) (_ : Fin 1) => ((i : ℕ) : ℝ)) idx ord = .ok (some v) := by
  obtain ⟨l, hl⟩ := example_spread idx hidx
  obtain ⟨f, w, -, -, -, h, -⟩ := C86_weighted qp hqp (1 / 10 ^ 10) (by positivity) big 2 (by norm_num) (by norm_num) _ idx ord hord l hl
  exact ⟨_, h⟩

example (draw : IndexDraw) (lstsq : RectLstsq ℝ) (big : ℝ) (idx : Fin (selectionSize 3) → Fin 3) (hidx : Function.Injective idx) (ord : List (Fin (2 + (2 - 2)))) (hord : ∀ t, t ∈ ord) :
    (∃ v, approximateExample big draw lstsq 2 3 2 (fun (i : Fin 3) (_ : Fin 1) => ((i : ℕ) : ℝ)) idx ord = .ok v) ∧
    approximateExample big draw lstsq 500 500 2 (fun (i : Fin 3) (_ : Fin 1) => ((i : ℕ) : ℝ)) idx ord = .error .valueError := by
  obtain ⟨l, hl⟩ := example_spread idx hidx
  obtain ⟨r, -, f, -, h, -⟩ := (C86_approximate big draw lstsq 2 3 (by norm_num) 2 (by norm_num) (by norm_num) _ idx ord hord l hl).2 le_rfl
  exact ⟨⟨_, h⟩, (C86_approximate big draw lstsq 500 500 (by norm_num) 2 (by norm_num) (by norm_num) _ idx ord hord l hl).1 (by norm_num)⟩

end Coreax
