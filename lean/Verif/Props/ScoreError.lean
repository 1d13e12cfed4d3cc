import Verif.Props.RateEndToEnd
import Verif.Props.SteinIdentity
import Verif.Props.Strict

/-!
# C99: how exact the score has to be, and what sums and constants do in a Stein kernel
-/

namespace Coreax

open Finset Spec MeasureTheory
open scoped RealInnerProductSpace

variable {d : ℕ}

/-- The squared size of the difference of two scores on the points `y` with weights `w`, measured with the kernel `k`: the weighted mean of
`k(yᵢ, yⱼ) ⟨s'(yᵢ) - s(yᵢ), s'(yⱼ) - s(yⱼ)⟩`. -/
noncomputable def Spec.scoreGapSq (k : Vec d → Vec d → ℝ) (s s' : Vec d → Vec d) {m : ℕ} (y : Fin m → Vec d) (w : Fin m → ℝ) : ℝ :=
  (∑ i, ∑ j, w i * w j * (k (y i) (y j) * ∑ l, (s' (y i) l - s (y i) l) * (s' (y j) l - s (y j) l))) / (∑ i, w i) ^ 2

namespace ScoreError

theorem avg_avg {m : ℕ} (w : Fin m → ℝ) (F : Fin m → Fin m → ℝ) :
    (avg w fun i => avg w fun j => F i j) = (∑ i, ∑ j, w i * w j * F i j) / (∑ i, w i) ^ 2 := by
  have e : ∀ i, w i * ((∑ j, w j * F i j) / ∑ j, w j) = (∑ j, w i * w j * F i j) / ∑ j, w j := fun i => by
    rw [mul_div_assoc', mul_sum]
    congr 1
    exact sum_congr rfl fun j _ => by ring
  simp only [avg, e, ← sum_div, div_div, pow_two]

theorem norm_mean {H : Type*} [NormedAddCommGroup H] [InnerProductSpace ℝ H] {m : ℕ} (w : Fin m → ℝ) (φ : Fin m → H) :
    ‖(∑ i, w i)⁻¹ • ∑ i, w i • φ i‖ ^ 2 = (∑ i, ∑ j, w i * w j * ⟪φ i, φ j⟫) / (∑ i, w i) ^ 2 := by
  rw [norm_smul, mul_pow, ← real_inner_self_eq_norm_sq (∑ i, w i • φ i), sum_inner, Real.norm_eq_abs, sq_abs, inv_pow, div_eq_inv_mul]
  congr 1
  refine sum_congr rfl fun i _ => ?_
  rw [inner_sum]
  exact sum_congr rfl fun j _ => by rw [real_inner_smul_left, real_inner_smul_right]; ring

/-- The two discrepancies are norms of two vectors whose difference has the norm of the score error. -/
theorem core (K : KExpr d) (hc : K.check = .ok ()) (hd : K.PsdDomain) (hs : K.Smooth) (s s' : Vec d → Vec d) {m : ℕ} (y : Fin m → Vec d)
    (w : Fin m → ℝ) :
    ∃ (H : Type) (_ : NormedAddCommGroup H) (_ : InnerProductSpace ℝ H) (a b : H),
      ‖a‖ ^ 2 = (avg w fun i => avg w fun j => (KExpr.stein K s).sem.compute (y i) (y j)) ∧
      ‖b‖ ^ 2 = (avg w fun i => avg w fun j => (KExpr.stein K s').sem.compute (y i) (y j)) ∧
      ‖b - a‖ ^ 2 = scoreGapSq K.sem.compute s s' y w := by
  obtain ⟨H, i1, i2, Ψ, hΨ⟩ := (stein_isPSD_marked K.sem (C08_psd K hc hd) (hs.contDiff hc)
      (fun x y => gradOk_of_smooth K x y hc (hs.smoothAt x y))
      (fun x y => isDiv_of_smooth K x y hc (hs.smoothAt x y) (hs.divSmoothAt x y))).exists_feature
  have hlin : ∀ x, Ψ (x, 1, s' x) - Ψ (x, 1, s x) = Ψ (x, 0, s' x - s x) := fun x => by
    rw [← sub_eq_zero, ← norm_eq_zero, ← sq_eq_zero_iff, ← real_inner_self_eq_norm_sq]
    simp only [inner_sub_left, inner_sub_right, ← hΨ, vdot, Pi.sub_apply, mul_sub, sub_mul, sum_sub_distrib]
    ring
  refine ⟨H, i1, i2, (∑ i, w i)⁻¹ • ∑ i, w i • Ψ (y i, 1, s (y i)), (∑ i, w i)⁻¹ • ∑ i, w i • Ψ (y i, 1, s' (y i)), ?_, ?_, ?_⟩
  · rw [norm_mean, avg_avg]
    simp only [← hΨ, KExpr.sem, KSem.ofCompute, steinCompute, one_mul]
  · rw [norm_mean, avg_avg]
    simp only [← hΨ, KExpr.sem, KSem.ofCompute, steinCompute, one_mul]
  · rw [← smul_sub, ← sum_sub_distrib]
    simp only [← smul_sub, hlin]
    rw [norm_mean]
    simp only [← hΨ, vdot, zero_mul, zero_add, scoreGapSq, Pi.sub_apply]

theorem gap_le (K : KExpr d) (hc : K.check = .ok ()) (hd : K.PsdDomain) (s s' : Vec d → Vec d) {m : ℕ} (y : Fin m → Vec d) (w : Fin m → ℝ)
    (hw : ∀ i, 0 ≤ w i) (hW : 0 < ∑ i, w i) {R ε : ℝ} (hR : ∀ i, 0 < w i → K.sem.compute (y i) (y i) ≤ R)
    (hε : ∀ i, 0 < w i → ∑ l, (s' (y i) l - s (y i) l) ^ 2 ≤ ε ^ 2) : scoreGapSq K.sem.compute s s' y w ≤ R * ε ^ 2 := by
  have hk := C08_psd K hc hd
  obtain ⟨H, _, _, φ, hφ⟩ := hk.exists_feature
  have hR0 : ∀ i, 0 < w i → 0 ≤ R := fun i hi => le_trans (by rw [hφ]; exact real_inner_self_nonneg) (hR i hi)
  rw [scoreGapSq, ← avg_avg]
  refine Rate.avg_le w hw hW _ _ fun i hi => Rate.avg_le w hw hW _ _ fun j hj => ?_
  have h1 : |K.sem.compute (y i) (y j)| ≤ R := by
    rw [hφ]
    refine (abs_real_inner_le_norm _ _).trans ?_
    have a1 := hR i hi
    have a2 := hR j hj
    rw [hφ, real_inner_self_eq_norm_sq] at a1 a2
    nlinarith [sq_nonneg (‖φ (y i)‖ - ‖φ (y j)‖)]
  have h2 : |∑ l, (s' (y i) l - s (y i) l) * (s' (y j) l - s (y j) l)| ≤ ε ^ 2 := by
    have a1 := hε i hi
    have a2 := hε j hj
    have a3 : ∀ t : ℝ, t ^ 2 = 1 → t * ∑ l, (s' (y i) l - s (y i) l) * (s' (y j) l - s (y j) l) ≤ ε ^ 2 := fun t ht => by
      have : ∑ l, t * ((s' (y i) l - s (y i) l) * (s' (y j) l - s (y j) l)) ≤
          ∑ l, ((s' (y i) l - s (y i) l) ^ 2 / 2 + (s' (y j) l - s (y j) l) ^ 2 / 2) := sum_le_sum fun l _ => by
        nlinarith [sq_nonneg (s' (y i) l - s (y i) l - t * (s' (y j) l - s (y j) l))]
      rw [sum_add_distrib, ← sum_div, ← sum_div, ← mul_sum] at this
      linarith
    rw [abs_le]
    have p1 := a3 1 (by norm_num)
    have p2 := a3 (-1) (by norm_num)
    constructor <;> linarith
  refine (le_abs_self _).trans ?_
  rw [abs_mul]
  exact mul_le_mul h1 h2 (abs_nonneg _) (hR0 i hi)

end ScoreError

/-- **C99.** The kernel Stein discrepancies of one weighted sample for two score functions differ by at most the size of the score error on the
sample, and their sum is at least that size: a sample that looks perfect for one score cannot look good for a score that is wrong on it. -/
theorem C99_two_scores (big : ℝ) (K : KExpr d) (hc : K.check = .ok ()) (hd : K.PsdDomain) (hs : K.Smooth) (s s' : Vec d → Vec d) {m : ℕ}
    (hm : 0 < m) (y : Data m (Vec d) ℝ) (hy : ∑ i, y.weights i ≠ 0) (bs : PyTree (Option ℤ)) (hbs : ValidBlock bs) :
    ∃ r r', ksdCompute big (KExpr.stein K s).sem.compute y bs none none = .ok r ∧
      ksdCompute big (KExpr.stein K s').sem.compute y bs none none = .ok r' ∧
      0 ≤ scoreGapSq K.sem.compute s s' y.data y.weights ∧
      |r - r'| ≤ Real.sqrt (scoreGapSq K.sem.compute s s' y.data y.weights) ∧
      Real.sqrt (scoreGapSq K.sem.compute s s' y.data y.weights) ≤ r + r' := by
  obtain ⟨H, _, _, a, b, ha, hb, hab⟩ := ScoreError.core K hc hd hs s s' y.data y.weights
  refine ⟨‖a‖, ‖b‖, ?_, ?_, ?_, ?_, ?_⟩
  · rw [C35_ksd_of_kernel big K s hc hd hs hm y hy bs hbs, ← ha, Real.sqrt_sq (norm_nonneg _)]
  · rw [C35_ksd_of_kernel big K s' hc hd hs hm y hy bs hbs, ← hb, Real.sqrt_sq (norm_nonneg _)]
  · rw [← hab]; positivity
  · rw [← hab, Real.sqrt_sq (norm_nonneg _), norm_sub_rev]
    exact abs_norm_sub_norm_le a b
  · rw [← hab, Real.sqrt_sq (norm_nonneg _)]
    linarith [norm_sub_le b a]

/-- **C99.** If on the points of positive weight the score is off by at most `ε` in Euclidean norm and the base kernel is at most `R` on the
diagonal, the discrepancy is off by at most `sqrt R * ε`, whatever the number of points and the dimension. -/
theorem C99_uniform (big : ℝ) (K : KExpr d) (hc : K.check = .ok ()) (hd : K.PsdDomain) (hs : K.Smooth) (s s' : Vec d → Vec d) {m : ℕ}
    (hm : 0 < m) (y : Data m (Vec d) ℝ) (hw : ∀ i, 0 ≤ y.weights i) (hW : 0 < ∑ i, y.weights i) (bs : PyTree (Option ℤ)) (hbs : ValidBlock bs)
    {R ε : ℝ} (hε0 : 0 ≤ ε) (hR : ∀ i, 0 < y.weights i → K.sem.compute (y.data i) (y.data i) ≤ R)
    (hε : ∀ i, 0 < y.weights i → ∑ l, (s' (y.data i) l - s (y.data i) l) ^ 2 ≤ ε ^ 2) :
    ∃ r r', ksdCompute big (KExpr.stein K s).sem.compute y bs none none = .ok r ∧
      ksdCompute big (KExpr.stein K s').sem.compute y bs none none = .ok r' ∧ |r - r'| ≤ Real.sqrt R * ε := by
  obtain ⟨r, r', h1, h2, -, h3, -⟩ := C99_two_scores big K hc hd hs s s' hm y hW.ne' bs hbs
  refine ⟨r, r', h1, h2, h3.trans ?_⟩
  rw [← Real.sqrt_sq hε0, ← Real.sqrt_mul' _ (sq_nonneg ε)]
  exact Real.sqrt_le_sqrt (ScoreError.gap_le K hc hd s s' y.data y.weights hw hW hR hε)

/-- **C99.** Stein thinning run with an approximate score `s'` is still good for the true score `s`: the discrepancy of the coreset for the true
score exceeds that of the data by at most the usual `sqrt (R' / size)` and twice `sqrt R * ε`. -/
theorem C99_stein_thinning {n : ℕ} [NeZero n] (big : ℝ) (K : KExpr d) (s s' : Vec d → Vec d) (hc : K.check = .ok ()) (hd : K.PsdDomain)
    (hs : K.Smooth) (unique : Bool) (bs bs' : PyTree (Option ℤ)) (hbs : ValidBlock bs) (hbs' : ValidBlock bs') (size : ℕ) (hsize : 0 < size)
    (pre : Data n (Vec d) ℝ) (hw0 : ∀ j, 0 ≤ pre.weights j) (hu : unique = true → UniformWeights pre.weights)
    (hpos : PosCount pre.weights size) (ord : List (Fin (size + (size - size)))) (hord : ∀ t, t ∈ ord)
    (R' : ℝ) (hR' : ∀ j, 0 < pre.weights j → (KExpr.stein K s').sem.compute (pre.data j) (pre.data j) ≤ R')
    {R ε : ℝ} (hε0 : 0 ≤ ε) (hR : ∀ x, K.sem.compute x x ≤ R) (hε : ∀ x, ∑ l, (s' x l - s x l) ^ 2 ≤ ε ^ 2) :
    ∃ f : Fin size → Fin n, ∃ r r',
      steinReduce big (KExpr.stein K s').sem.compute unique bs size pre none ord = .ok ⟨fun t => (f t : ℤ), fun _ => 1⟩ ∧
      ksdCompute big (KExpr.stein K s).sem.compute ⟨fun t => pre.data (f t), fun _ => (1 : ℝ)⟩ bs' none none = .ok r ∧
      ksdCompute big (KExpr.stein K s).sem.compute pre bs' none none = .ok r' ∧
      r ≤ r' + Real.sqrt (R' / size) + 2 * (Real.sqrt R * ε) := by
  obtain ⟨f, q, q', h1, h2, h3, h4⟩ := C49_ksd_compute big K s' hc hd hs unique bs bs' hbs hbs' size hsize pre hw0 hu hpos ord hord R' hR'
  have hW : 0 < ∑ j, pre.weights j := by
    obtain ⟨j, hj⟩ := Finset.card_pos.1 (lt_of_lt_of_le hsize hpos)
    exact Finset.sum_pos' (fun i _ => hw0 i) ⟨j, Finset.mem_univ _, (Finset.mem_filter.1 hj).2⟩
  have hsz : (0 : ℝ) < size := by exact_mod_cast hsize
  obtain ⟨r, t, a1, a2, a3⟩ := C99_uniform big K hc hd hs s s' hsize ⟨fun t => pre.data (f t), fun _ => (1 : ℝ)⟩ (fun _ => zero_le_one)
    (by simpa using hsz) bs' hbs' hε0 (fun i _ => hR _) (fun i _ => hε _)
  obtain ⟨r', t', b1, b2, b3⟩ := C99_uniform big K hc hd hs s s' (NeZero.pos n) pre hw0 hW bs' hbs' hε0 (fun i _ => hR _) (fun i _ => hε _)
  rw [a2] at h2
  rw [b2] at h3
  cases h2
  cases h3
  refine ⟨f, r, r', h1, a1, b1, ?_⟩
  linarith [(abs_le.1 a3).2, (abs_le.1 b3).1]

/-- **C99.** With a strictly positive definite base kernel and distinct points the size of the score error vanishes exactly when the two scores agree
at every point that has a weight; so a single wrong value at such a point keeps the two discrepancies from being both small, and wrong values
at points without weight change nothing. -/
theorem C99_wrong_score (big : ℝ) (K : KExpr d) (hc : K.check = .ok ()) (hd : K.PsdDomain) (hs : K.Smooth) (hsep : K.Separating)
    (s s' : Vec d → Vec d) {m : ℕ} (hm : 0 < m) (y : Data m (Vec d) ℝ) (hi : Function.Injective y.data) (hy : ∑ i, y.weights i ≠ 0)
    (bs : PyTree (Option ℤ)) (hbs : ValidBlock bs) :
    (scoreGapSq K.sem.compute s s' y.data y.weights = 0 ↔ ∀ i, y.weights i ≠ 0 → s' (y.data i) = s (y.data i)) ∧
      ((∀ i, y.weights i ≠ 0 → s' (y.data i) = s (y.data i)) →
        ksdCompute big (KExpr.stein K s').sem.compute y bs none none = ksdCompute big (KExpr.stein K s).sem.compute y bs none none) := by
  have hfirst : scoreGapSq K.sem.compute s s' y.data y.weights = 0 ↔ ∀ i, y.weights i ≠ 0 → s' (y.data i) = s (y.data i) := ?_
  · refine ⟨hfirst, fun h => ?_⟩
    obtain ⟨r, r', h1, h2, h3, h4, h5⟩ := C99_two_scores big K hc hd hs s s' hm y hy bs hbs
    rw [hfirst.2 h, Real.sqrt_zero] at h4
    rw [h1, h2, sub_eq_zero.1 (abs_eq_zero.1 (le_antisymm h4 (abs_nonneg _)))]
  have hW2 : (∑ i, y.weights i) ^ 2 ≠ 0 := pow_ne_zero _ hy
  have hstrict := C87_strict K hc hd hsep
  have hsplit : ∑ i, ∑ j, y.weights i * y.weights j * (K.sem.compute (y.data i) (y.data j) *
        ∑ l, (s' (y.data i) l - s (y.data i) l) * (s' (y.data j) l - s (y.data j) l)) =
      ∑ l, ∑ i, ∑ j, (y.weights i * (s' (y.data i) l - s (y.data i) l)) * (y.weights j * (s' (y.data j) l - s (y.data j) l)) *
        K.sem.compute (y.data i) (y.data j) := by
    rw [sum_comm (s := univ (α := Fin d))]
    refine sum_congr rfl fun i _ => ?_
    rw [sum_comm (s := univ (α := Fin d))]
    refine sum_congr rfl fun j _ => ?_
    rw [mul_sum, mul_sum]
    exact sum_congr rfl fun l _ => by ring
  rw [scoreGapSq, div_eq_zero_iff, or_iff_left hW2, hsplit, sum_eq_zero_iff_of_nonneg fun l _ => hstrict.1.2 m y.data _]
  constructor
  · intro h i hwi
    funext l
    have := hstrict.2 m y.data _ hi (h l (mem_univ l)) i
    rcases mul_eq_zero.1 this with h' | h'
    · exact absurd h' hwi
    · linarith
  · intro h l _
    refine sum_eq_zero fun i _ => sum_eq_zero fun j _ => ?_
    by_cases hwi : y.weights i = 0
    · rw [hwi]; ring
    · rw [h i hwi]; ring

open ProbabilityTheory in
/-- **C99.** For independent draws from the density with score `ψ` the discrepancy computed with another score `s` tends to the size of the score
error on the sample, not to zero: its mean squared distance from that size is at most `1 / n` times the mean of the true Stein kernel. -/
theorem C99_sample (big : ℝ) (K : KExpr d) (hc : K.check = .ok ()) (hd : K.PsdDomain) (hs : K.Smooth) (hb : K.Bounded) {p : Vec d → ℝ}
    {ψ : Vec d → Vec d} (h : Spec.IsScore p ψ) (hp : Integrable p) (hψm : Measurable ψ) (hψ : ∀ i, Integrable fun y => p y * ψ y i)
    (hψ2 : ∀ i, Integrable fun y => p y * ψ y i ^ 2) (s : Vec d → Vec d) {Ω : Type*} [MeasurableSpace Ω] {P : Measure Ω}
    [IsProbabilityMeasure P] {n : ℕ} (hn : 0 < n) (X : Fin n → Ω → Vec d) (hX : ∀ i, Measurable (X i))
    (hlaw : ∀ i, P.map (X i) = volume.withDensity fun x => ENNReal.ofReal (p x)) (hind : Pairwise fun i j => X i ⟂ᵢ[P] X j)
    (bs : PyTree (Option ℤ)) (hbs : ValidBlock bs) :
    ∃ r e : Ω → ℝ, (∀ ω, ksdCompute big (KExpr.stein K s).sem.compute (Data.ofArray fun i => X i ω) bs none none = .ok (r ω)) ∧
      (∀ ω, |r ω - Real.sqrt (scoreGapSq K.sem.compute ψ s (fun i => X i ω) fun _ => 1)| ≤ e ω) ∧
      Integrable (fun ω => e ω ^ 2) P ∧ ∫ ω, e ω ^ 2 ∂P = 1 / n * ∫ x, p x * (KExpr.stein K ψ).sem.compute x x := by
  obtain ⟨e, h1, h2, h3⟩ := C81_expected big K hc hd hs hb h hp hψm hψ hψ2 hn X hX hlaw hind bs hbs
  have key : ∀ ω, ∃ r, ksdCompute big (KExpr.stein K s).sem.compute (Data.ofArray fun i => X i ω) bs none none = .ok r ∧
      |r - Real.sqrt (scoreGapSq K.sem.compute ψ s (fun i => X i ω) fun _ => 1)| ≤ e ω := fun ω => by
    have hn' : (n : ℝ) ≠ 0 := by exact_mod_cast hn.ne'
    obtain ⟨r, r', a1, a2, -, a3, a4⟩ := C99_two_scores big K hc hd hs ψ s hn (Data.ofArray fun i => X i ω)
      (by simpa [Data.ofArray] using hn') bs hbs
    rw [h1 ω] at a1
    cases a1
    refine ⟨r', a2, ?_⟩
    have e1 := abs_le.1 a3
    simp only [Data.ofArray] at a3 a4 e1
    rw [abs_le]
    constructor
    · linarith
    · linarith [e1.1]
  choose r hr using key
  exact ⟨r, e, fun ω => (hr ω).1, fun ω => (hr ω).2, h2, h3⟩

/-! ### Sums and constants -/

/-- **C99.** With a sum of kernels as base kernel the squared discrepancies add up. -/
theorem C99_sum (big : ℝ) (K L : KExpr d) (hcK : K.check = .ok ()) (hcL : L.check = .ok ()) (hdK : K.PsdDomain) (hdL : L.PsdDomain)
    (hsK : K.Smooth) (hsL : L.Smooth) (s : Vec d → Vec d) {m : ℕ} (hm : 0 < m) (y : Data m (Vec d) ℝ) (hy : ∑ i, y.weights i ≠ 0)
    (bs : PyTree (Option ℤ)) (hbs : ValidBlock bs) :
    ∃ a b c, ksdCompute big (KExpr.stein K s).sem.compute y bs none none = .ok a ∧
      ksdCompute big (KExpr.stein L s).sem.compute y bs none none = .ok b ∧
      ksdCompute big (KExpr.stein (.add K L) s).sem.compute y bs none none = .ok c ∧ 0 ≤ c ∧ c ^ 2 = a ^ 2 + b ^ 2 := by
  have hc : (KExpr.add K L).check = .ok () := by simp [KExpr.check, hcK, hcL, bind, Except.bind]
  have hA := C35_ksd_norm big _ (C35_psd K s hcK hdK hsK) hm y hy bs hbs
  have hB := C35_ksd_norm big _ (C35_psd L s hcL hdL hsL) hm y hy bs hbs
  have hC := C35_ksd_norm big _ (C35_psd (.add K L) s hc ⟨hdK, hdL⟩ ⟨hsK, hsL⟩) hm y hy bs hbs
  refine ⟨_, _, _, hA.1, hB.1, hC.1, Real.sqrt_nonneg _, ?_⟩
  rw [Real.sq_sqrt hA.2.1, Real.sq_sqrt hB.2.1, Real.sq_sqrt hC.2.1]
  simp only [ScoreError.avg_avg, ← add_div, ← sum_add_distrib, ← mul_add]
  congr 1
  refine sum_congr rfl fun i _ => sum_congr rfl fun j _ => ?_
  congr 1
  simp only [KExpr.sem, KSem.ofCompute, steinCompute, addSem, vdot, add_mul, sum_add_distrib]
  ring

/-- **C99.** A constant base kernel sees only the weighted mean of the score. -/
theorem C99_constant (big : ℝ) (c : ℝ) (hc : (KExpr.const c : KExpr d).check = .ok ()) (s : Vec d → Vec d) {m : ℕ} (hm : 0 < m)
    (y : Data m (Vec d) ℝ) (hy : ∑ i, y.weights i ≠ 0) (bs : PyTree (Option ℤ)) (hbs : ValidBlock bs) :
    ksdCompute big (KExpr.stein (.const c) s).sem.compute y bs none none =
      .ok (Real.sqrt (c * ∑ l, ((∑ i, y.weights i * s (y.data i) l) / ∑ i, y.weights i) ^ 2)) := by
  rw [C35_ksd_of_kernel big (.const c) s hc trivial trivial hm y hy bs hbs]
  congr 2
  have e : ∀ (c : ℝ) (v : Fin m → ℝ) (u : Fin m → Vec d), ∑ i, ∑ j, v i * v j * (c * ∑ l, u i l * u j l) = c * ∑ l, (∑ i, v i * u i l) ^ 2 :=
      fun c v u => by
    have h1 : ∀ l, (∑ i, v i * u i l) ^ 2 = ∑ i, ∑ j, v i * u i l * (v j * u j l) := fun l => by rw [pow_two, sum_mul_sum]
    simp only [h1, mul_sum]
    rw [sum_comm (s := univ (α := Fin d))]
    refine sum_congr rfl fun i _ => ?_
    rw [sum_comm (s := univ (α := Fin d))]
    exact sum_congr rfl fun j _ => sum_congr rfl fun l _ => by ring
  simp only [ScoreError.avg_avg, KExpr.sem, KSem.ofCompute, steinCompute, constSem, vdot, Pi.zero_apply, zero_mul, sum_const_zero, zero_add, add_zero, div_pow,
    ← sum_div, mul_div_assoc', e]

/-- **C99.** Adding a constant to the base kernel adds the mean of the score to the discrepancy: the square grows by the constant times the squared
norm of the weighted mean score. -/
theorem C99_add_constant (big : ℝ) (K : KExpr d) (hcK : K.check = .ok ()) (hdK : K.PsdDomain) (hsK : K.Smooth) (c : ℝ)
    (hc : (KExpr.const c : KExpr d).check = .ok ()) (s : Vec d → Vec d) {m : ℕ} (hm : 0 < m)
    (y : Data m (Vec d) ℝ) (hy : ∑ i, y.weights i ≠ 0) (bs : PyTree (Option ℤ)) (hbs : ValidBlock bs) :
    ∃ a b, ksdCompute big (KExpr.stein K s).sem.compute y bs none none = .ok a ∧
      ksdCompute big (KExpr.stein (.add K (.const c)) s).sem.compute y bs none none = .ok b ∧
      b ^ 2 = a ^ 2 + c * ∑ l, ((∑ i, y.weights i * s (y.data i) l) / ∑ i, y.weights i) ^ 2 := by
  obtain ⟨a, b, r, h1, h2, h3, -, h4⟩ := C99_sum big K (.const c) hcK hc hdK trivial hsK trivial s hm y hy bs hbs
  refine ⟨a, r, h1, h3, ?_⟩
  rw [C99_constant big c hc s hm y hy bs hbs] at h2
  cases h2
  have hc0 : 0 ≤ c := checkNonneg_ok hc
  rw [h4, Real.sq_sqrt (mul_nonneg hc0 (sum_nonneg fun l _ => sq_nonneg _))]

/-- **C99.** The bound of `C99_two_scores` cannot be improved: with a constant base kernel and the zero score on one side, the difference of the
discrepancies is exactly the size of the score error, for every sample and every other score. -/
theorem C99_sharp (big : ℝ) (c : ℝ) (hc : (KExpr.const c : KExpr d).check = .ok ()) (s' : Vec d → Vec d) {m : ℕ} (hm : 0 < m)
    (y : Data m (Vec d) ℝ) (hy : ∑ i, y.weights i ≠ 0) (bs : PyTree (Option ℤ)) (hbs : ValidBlock bs) :
    ksdCompute big (KExpr.stein (.const c) 0).sem.compute y bs none none = .ok 0 ∧
    ksdCompute big (KExpr.stein (.const c) s').sem.compute y bs none none =
      .ok (Real.sqrt (scoreGapSq (KExpr.const c : KExpr d).sem.compute 0 s' y.data y.weights)) := by
  have h0 : ksdCompute big (KExpr.stein (.const c) (0 : Vec d → Vec d)).sem.compute y bs none none = .ok 0 := by
    rw [C99_constant big c hc 0 hm y hy bs hbs]
    simp
  refine ⟨h0, ?_⟩
  obtain ⟨r, r', h1, h2, h3, h4, h5⟩ := C99_two_scores big (.const c) hc trivial trivial 0 s' hm y hy bs hbs
  rw [h0] at h1
  cases h1
  rw [h2]
  congr 1
  rw [zero_sub, abs_neg] at h4
  linarith [le_abs_self r']

/-! ### Cases that meet the hypotheses -/

section Cases

theorem ScoreError.check_se : (KExpr.squaredExponential 2 1 : KExpr d).check = .ok () := by norm_num [KExpr.check, checkPos, bind, Except.bind]
theorem ScoreError.check_const : (KExpr.const 3 : KExpr d).check = .ok () := by norm_num [KExpr.check, checkNonneg]

/-- Three weighted points, one of them without weight, and a score that is wrong by a constant. -/
example (big : ℝ) := C99_two_scores (d := 2) big (.squaredExponential 2 1) ScoreError.check_se trivial trivial (fun x => -x) (fun x i => 1 - x i)
  (m := 3) (by norm_num) ⟨![![0, 1], ![1, 4], ![2, 2]], ![1, 0, 2]⟩ (by simp [Fin.sum_univ_three]; norm_num) (.leaf none) (.inl rfl)

example (big : ℝ) := C99_uniform (d := 2) big (.squaredExponential 2 1) ScoreError.check_se trivial trivial (fun x => -x) (fun x i => 1 - x i)
  (m := 3) (by norm_num) ⟨![![0, 1], ![1, 4], ![2, 2]], ![1, 0, 2]⟩ (fun i => by fin_cases i <;> norm_num) (by simp [Fin.sum_univ_three]; norm_num)
  (.leaf none) (.inl rfl) (R := 1) (ε := 2) (by norm_num) (fun i _ => by simp [KExpr.sem, squaredExponentialSem, sqDist])
  (fun i _ => by norm_num [Fin.sum_univ_two])

example (big : ℝ) (pre : Fin 3 → Vec 2) := C99_stein_thinning (d := 2) (n := 3) big (.squaredExponential 2 1) (fun x => -x) (fun x i => 1 - x i)
  ScoreError.check_se trivial trivial true (.leaf none) (.leaf none) (.inl rfl) (.inl rfl) 2 (by norm_num)
  ⟨pre, fun _ => 1⟩ (fun i => by norm_num) (fun _ => ⟨1, by norm_num, fun _ => .inr rfl⟩) (by simp [PosCount])
  [0, 1] (by decide) (∑ j, |(KExpr.stein (.squaredExponential 2 1) fun x i => 1 - x i).sem.compute (pre j) (pre j)|)
  (fun j _ => (le_abs_self _).trans (single_le_sum (f := fun j => |(KExpr.stein (.squaredExponential 2 1) fun x i => 1 - x i).sem.compute (pre j) (pre j)|)
    (fun _ _ => abs_nonneg _) (mem_univ j))) (R := 1) (ε := 2) (by norm_num) (fun x => by simp [KExpr.sem, squaredExponentialSem, sqDist])
  (fun x => by norm_num [Fin.sum_univ_two])

example (big : ℝ) (a : Vec 2) := C99_sum big (.squaredExponential 2 1) (.linear 1 1) ScoreError.check_se
  (by norm_num [KExpr.check, checkPos, checkNonneg, bind, Except.bind]) trivial trivial trivial trivial (fun x i => a i - x i) (m := 2) (by norm_num)
  ⟨![![0, 1], ![1, 4]], ![1, 2]⟩ (by norm_num [Fin.sum_univ_two]) (.leaf none) (.inl rfl)

example (big : ℝ) := C99_constant (d := 2) big 3 ScoreError.check_const (fun x => -x) (m := 2) (by norm_num)
  ⟨![![0, 1], ![1, 4]], ![1, 2]⟩ (by norm_num [Fin.sum_univ_two]) (.leaf none) (.inl rfl)

example (big : ℝ) := C99_add_constant (d := 2) big (.squaredExponential 2 1) ScoreError.check_se trivial trivial 3 ScoreError.check_const
  (fun x => -x) (m := 2) (by norm_num) ⟨![![0, 1], ![1, 4]], ![1, 2]⟩ (by norm_num [Fin.sum_univ_two]) (.leaf none) (.inl rfl)

example (big : ℝ) := C99_sharp (d := 2) big 3 ScoreError.check_const (fun x => -x) (m := 2) (by norm_num)
  ⟨![![0, 1], ![1, 4]], ![1, 2]⟩ (by norm_num [Fin.sum_univ_two]) (.leaf none) (.inl rfl)

example (big : ℝ) := C99_wrong_score (d := 1) big (.squaredExponential 2 1) ScoreError.check_se trivial trivial trivial (fun x => -x)
  (fun x i => if x i = 4 then 7 else -x i) (m := 3) (by norm_num) ⟨fun i _ => (i : ℕ), ![1, 0, 2]⟩
  (fun i j h => Fin.ext (Nat.cast_injective (R := ℝ) (congrFun h 0))) (by simp [Fin.sum_univ_three]; norm_num) (.leaf none) (.inl rfl)

open ProbabilityTheory in
/-- Five independent draws from the standard Gaussian in the plane, with the score of a shifted one. -/
example := C99_sample 1 (.add (.pcimq 1 2) (.squaredExponential 1 1)) (by norm_num [KExpr.check, checkPos, Bind.bind, Except.bind]) ⟨trivial, trivial⟩
  ⟨trivial, trivial⟩ ⟨trivial, trivial⟩ (SteinMean.gauss_isScore (d := 2)) SteinMean.gauss_integrable (by fun_prop) SteinMean.gauss_first
  SteinMean.gauss_second (fun x i => 1 - x i) (P := Measure.pi fun _ : Fin 5 => SteinMean.gaussMeasure) (by norm_num) (fun i ω => ω i)
  (fun i => measurable_pi_apply i) (fun i => (measurePreserving_eval _ i).map_eq)
  (fun i j hij => (iIndepFun_pi (X := fun _ : Fin 5 => (id : Vec 2 → Vec 2)) fun _ => aemeasurable_id).indepFun hij) (.leaf none) (Or.inl rfl)

end Cases

end Coreax
