import Verif.Props.ApproxHerding
import Verif.Props.RandomRate

/-!
# C63: kernel herding with a Nyström kernel on average over the keys
-/

set_option linter.unusedSectionVars false

namespace Coreax

open Spec MeasureTheory Sample

section
variable {U : Type} [MeasurableSpace U] {μ : Measure U} [IsProbabilityMeasure μ] {n size : ℕ}

/-- A quantity that depends on the drawn tuple alone is integrable. -/
theorem TupleLaw.integrable {I : U → Fin size → ℤ} {law : (Fin size → Fin n) → ℝ} (h : TupleLaw μ I law) (g : U → ℝ)
    (hg : ∀ u v, I u = I v → g u = g v) : Integrable g μ := by
  classical
  choose i hi using h.range
  have hset : ∀ s, {u | i u = s} = {u | ∀ t, I u t = (s t : ℤ)} := by
    intro s; ext u
    simp only [Set.mem_ofPred_eq, hi]
    constructor
    · rintro rfl t; rfl
    · intro h; funext t; exact Fin.ext (by exact_mod_cast h t)
  let G : (Fin size → Fin n) → ℝ := fun s => if hs : ∃ u, i u = s then g hs.choose else 0
  have hG : ∀ u, g u = G (i u) := by
    intro u
    have hs : ∃ v, i v = i u := ⟨u, rfl⟩
    simp only [G, dif_pos hs]
    refine hg _ _ (funext fun t => ?_)
    rw [hi, hi, hs.choose_spec]
  have hdec : ∀ u, g u = ∑ s, {u | i u = s}.indicator (fun _ => G s) u := by
    intro u
    rw [Finset.sum_eq_single (i u)]
    · simp [hG]
    · intro s _ hne
      exact Set.indicator_of_notMem (fun h => hne (by exact (show i u = s from h).symm)) _
    · simp
  simp only [hdec, show g = fun u => ∑ s, {u | i u = s}.indicator (fun _ => G s) u from funext hdec]
  exact integrable_finsetSum _ fun s _ => (integrable_const (G s)).indicator (by rw [hset s]; exact h.meas s)

end

/-- The mean square of a quantity that exceeds another by at most a constant. -/
theorem mean_square_add {U : Type} [MeasurableSpace U] {μ : Measure U} [IsProbabilityMeasure μ] {a b : U → ℝ} {c : ℝ} (hc : 0 ≤ c) (ha : ∀ u, 0 ≤ a u)
    (hb : ∀ u, 0 ≤ b u) (hab : ∀ u, a u ≤ c + b u) (h1 : Integrable b μ) (h2 : Integrable (fun u => b u ^ 2) μ) (h3 : Integrable (fun u => a u ^ 2) μ) :
    Real.sqrt (∫ u, a u ^ 2 ∂μ) ≤ c + Real.sqrt (∫ u, b u ^ 2 ∂μ) := by
  set s := ∫ u, b u ^ 2 ∂μ with hs
  set e := ∫ u, b u ∂μ with he
  have h0 : 0 ≤ e := integral_nonneg hb
  have hvar : e ^ 2 ≤ s := by
    have : 0 ≤ ∫ u, (b u - e) ^ 2 ∂μ := integral_nonneg fun u => sq_nonneg _
    have hx : ∫ u, (b u - e) ^ 2 ∂μ = s - 2 * e * e + e ^ 2 := by
      have : ∀ u, (b u - e) ^ 2 = b u ^ 2 - 2 * e * b u + e ^ 2 := fun u => by ring
      simp only [this]
      have i1 : Integrable (fun u => b u ^ 2 - 2 * e * b u) μ := h2.sub (h1.const_mul _)
      rw [integral_add i1 (integrable_const _), integral_sub h2 (h1.const_mul _), integral_const_mul]
      simp [← he, ← hs]
    nlinarith
  have hes : e ≤ Real.sqrt s := Real.le_sqrt_of_sq_le hvar
  have hmain : ∫ u, a u ^ 2 ∂μ ≤ c ^ 2 + 2 * c * e + s := by
    have : ∫ u, (c ^ 2 + 2 * c * b u + b u ^ 2) ∂μ = c ^ 2 + 2 * c * e + s := by
      have i1 : Integrable (fun u => c ^ 2 + 2 * c * b u) μ := (integrable_const _).add (h1.const_mul _)
      rw [integral_add i1 h2, integral_add (integrable_const _) (h1.const_mul _), integral_const_mul]
      simp [← he, ← hs]
    rw [← this]
    refine integral_mono h3 (((integrable_const _).add (h1.const_mul _)).add h2) fun u => ?_
    have := hab u
    have := ha u
    show a u ^ 2 ≤ c ^ 2 + 2 * c * b u + b u ^ 2
    nlinarith
  have hs0 : 0 ≤ s := (sq_nonneg e).trans hvar
  refine Real.sqrt_le_iff.2 ⟨by positivity, hmain.trans ?_⟩
  have := Real.sq_sqrt hs0
  nlinarith [Real.sqrt_nonneg s]

/-- Herding with a Nyström kernel, over the keys of the kernel: the root mean square of the computed MMD between the data and the coreset is at most that of a
uniform random sample of the size of the Nyström subset, plus the herding error `√(R / size)`. -/
theorem C63_nystrom_expected {X U : Type} [Zero X] [MeasurableSpace U] {μ : Measure U} [IsProbabilityMeasure μ] {n : ℕ} [NeZero n] {D : U → IndexDraw}
    (hdraw : ∀ u, IndexDrawContract (D u)) {lstsq : RectLstsq ℝ} (hl : RectLstsqContract lstsq) (big : ℝ) (k : X → X → ℝ) (hk : IsPSD k) {m : ℕ}
    (hm : 0 < m) (hmn : m ≤ n) (hlaw : TupleLaw μ (fun u => D u n m) (distinctDraws (n := n)))
    (bs : PyTree (Option ℤ)) (hbs : ValidBlock bs) (size : ℕ) (hsize : 0 < size) (hle : size ≤ n) (pre : Data n X ℝ) (hpos : ∀ j, 0 < pre.weights j)
    (hgram : ∀ S : Fin m → Fin n, Function.Injective S → IndepColumns (fun s j => k (pre.data (S s)) (pre.data (S j))))
    (ord : List (Fin (size + (size - size)))) (hord : ∀ t, t ∈ ord) (R : ℝ) (hR : ∀ j, k (pre.data j) (pre.data j) ≤ R) :
    ∃ err : U → ℝ, (∀ u, ∃ f : Fin size → Fin n, ∃ st,
        herdingReduceApprox big k (nystromRowMean (D u) lstsq big k m m) false bs size pre ord = .ok (⟨fun t => (f t : ℤ), fun _ => 1⟩, st) ∧
        mmdCompute big k pre (Data.ofArray fun t => pre.data (f t)) bs = .ok (err u)) ∧
      Integrable (fun u => err u ^ 2) μ ∧
      Real.sqrt (∫ u, err u ^ 2 ∂μ) ≤ Real.sqrt (R / size)
        + Real.sqrt (mmdSq k pre.data pre.weights pre.data (fun _ => 1) + (n - m) / (n - 1) * (spread k pre.data (fun _ => 1) / m)) := by
  have hn := NeZero.pos n
  have hw : ∑ i, pre.weights i ≠ 0 := (Finset.sum_pos (fun j _ => hpos j) ⟨⟨0, hn⟩, Finset.mem_univ _⟩).ne'
  have key : ∀ u, ∃ S : Fin m → Fin n, Function.Injective S ∧ (∀ s, D u n m s = ((S s : ℕ) : ℤ)) ∧ ∃ f : Fin size → Fin n, ∃ st, ∃ a b,
      herdingReduceApprox big k (nystromRowMean (D u) lstsq big k m m) false bs size pre ord = .ok (⟨fun t => (f t : ℤ), fun _ => 1⟩, st) ∧
      mmdCompute big k pre (Data.ofArray fun t => pre.data (f t)) bs = .ok a ∧
      mmdCompute big k pre (Data.ofArray fun s => pre.data (S s)) bs = .ok b ∧ |a - b| ≤ Real.sqrt (R / size) := fun u =>
    C63_nystrom_limit (hdraw u) hl big k hk hm hmn bs hbs size hsize hle pre hpos (fun S hS => hgram S (by
      obtain ⟨S', hS'i, hS'⟩ := hdraw u n m hmn
      have : S = S' := funext fun s => Fin.ext (by exact_mod_cast (hS s).symm.trans (hS' s))
      exact this ▸ hS'i)) ord hord R hR
  choose S hSi hS f st a b h1 h2 h3 h4 using key
  obtain ⟨err, e1, e2, e3⟩ := C57_unique big k (⟨pre, none⟩ : DSet n X Unit ℝ) (fun u _ _ => D u n m) hlaw hmn hm hw
  have hpt : ∀ u, err u = b u ^ 2 := by
    intro u
    obtain ⟨idx, g1, g2⟩ := e2 u
    have hidx : idx = ⟨fun s => ((S u s : ℕ) : ℤ), fun _ => 1⟩ := by
      have hf : choiceFails n m (!true) = false := by simp [choiceFails]; omega
      have hD : D u n m = fun s => ((S u s : ℕ) : ℤ) := funext (hS u)
      simp only [randomSample, hf, Bool.false_eq_true, if_false, Coresubset.init, hD] at g1
      rw [if_neg (by omega)] at g1
      simpa using g1.symm
    have g3 := g2 bs hbs
    have hpts : (Coresubset.points (⟨m, n, idx, ⟨pre, none⟩⟩ : Coresubset X Unit ℝ)).toData = Data.ofArray fun s => pre.data (S u s) := by
      subst hidx
      ext s
      · simp [Coresubset.points, DSet.getItem, gatherIdx_coe, Data.ofArray]
      · simp [Coresubset.points, Data.ofArray]
    have g4 := C07_squared big k hn hm pre (Data.ofArray fun s => pre.data (S u s)) hw (ofArray_sum hm _) bs hbs
    rw [hpts] at g3
    have g5 := Except.ok.inj (g3.symm.trans g4)
    have g6 := h3 u
    rw [C07_compute big k hn hm pre _ hw (ofArray_sum hm _) bs hbs] at g6
    have g7 := (C07_rkhs_distance big k hk hn hm pre (Data.ofArray fun s => pre.data (S u s)) hw (ofArray_sum hm _) bs hbs).1
    rw [← Except.ok.inj g6, max_eq_right g7, Real.sq_sqrt g7, g5]
  have hnn : ∀ {l : ℕ} (y : Data l X ℝ) (c : ℝ), mmdCompute big k pre y bs = .ok c → 0 ≤ c := by
    intro l y c hc
    unfold mmdCompute clipSqrt at hc
    split at hc
    · simp at hc
    · rw [← Except.ok.inj hc]; exact Real.sqrt_nonneg _
  have hdet : ∀ u v, D u n m = D v n m → a u = a v ∧ b u = b v := by
    intro u v huv
    have hny : nystromRowMean (D u) lstsq big k m m (n := n) = nystromRowMean (D v) lstsq big k m m := by
      funext x
      simp only [nystromRowMean, randomLeastSquares, randomIndices, huv]
    have hf : f u = f v := by
      have := h1 u
      rw [hny, h1 v] at this
      simp only [Except.ok.injEq, Prod.mk.injEq, Data.mk.injEq] at this
      funext t
      exact Fin.ext (by exact_mod_cast (congrFun this.1.1 t).symm)
    have hSS : S u = S v := funext fun s => Fin.ext (by
      have := (hS u s).symm.trans ((congrFun huv s).trans (hS v s))
      exact_mod_cast this)
    refine ⟨?_, ?_⟩
    · have := h2 u
      rw [hf, h2 v] at this
      exact (Except.ok.inj this).symm
    · have := h3 u
      rw [hSS, h3 v] at this
      exact (Except.ok.inj this).symm
  refine ⟨a, fun u => ⟨f u, st u, h1 u, h2 u⟩, hlaw.integrable _ fun u v h => by rw [(hdet u v h).1], ?_⟩
  have := mean_square_add (μ := μ) (a := a) (b := b) (Real.sqrt_nonneg (R / size)) (fun u => hnn _ _ (h2 u)) (fun u => hnn _ _ (h3 u))
    (fun u => by have := (abs_le.1 (h4 u)).2; linarith) (hlaw.integrable _ fun u v h => (hdet u v h).2)
    (hlaw.integrable _ fun u v h => by rw [(hdet u v h).2]) (hlaw.integrable _ fun u v h => by rw [(hdet u v h).1])
  simp only [← hpt] at this
  rwa [e3] at this

/-- The same for unit weights in terms of the sizes alone. -/
theorem C63_nystrom_expected_unit {X U : Type} [Zero X] [MeasurableSpace U] {μ : Measure U} [IsProbabilityMeasure μ] {n : ℕ} [NeZero n] {D : U → IndexDraw}
    (hdraw : ∀ u, IndexDrawContract (D u)) {lstsq : RectLstsq ℝ} (hl : RectLstsqContract lstsq) (big : ℝ) (k : X → X → ℝ) (hk : IsPSD k) {m : ℕ}
    (hm : 0 < m) (hmn : m ≤ n) (hlaw : TupleLaw μ (fun u => D u n m) (distinctDraws (n := n)))
    (bs : PyTree (Option ℤ)) (hbs : ValidBlock bs) (size : ℕ) (hsize : 0 < size) (hle : size ≤ n) (x : Fin n → X)
    (hgram : ∀ S : Fin m → Fin n, Function.Injective S → IndepColumns (fun s j => k (x (S s)) (x (S j))))
    (ord : List (Fin (size + (size - size)))) (hord : ∀ t, t ∈ ord) (R : ℝ) (hR : ∀ j, k (x j) (x j) ≤ R) :
    ∃ err : U → ℝ, (∀ u, ∃ f : Fin size → Fin n, ∃ st,
        herdingReduceApprox big k (nystromRowMean (D u) lstsq big k m m) false bs size (Data.ofArray x) ord = .ok (⟨fun t => (f t : ℤ), fun _ => 1⟩, st) ∧
        mmdCompute big k (Data.ofArray x) (Data.ofArray fun t => x (f t)) bs = .ok (err u)) ∧
      Integrable (fun u => err u ^ 2) μ ∧ Real.sqrt (∫ u, err u ^ 2 ∂μ) ≤ Real.sqrt (R / size) + Real.sqrt (R / m) := by
  obtain ⟨err, h1, h2, h3⟩ := C63_nystrom_expected hdraw hl big k hk hm hmn hlaw bs hbs size hsize hle (Data.ofArray x) (fun _ => one_pos) hgram ord hord R hR
  refine ⟨err, h1, h2, h3.trans (add_le_add le_rfl (Real.sqrt_le_sqrt ?_))⟩
  have hn : (0 : ℝ) < n := by exact_mod_cast NeZero.pos n
  have hm' : (0 : ℝ) < m := by exact_mod_cast hm
  have hself : mmdSq k (Data.ofArray x : Data n X ℝ).data (Data.ofArray x : Data n X ℝ).weights (Data.ofArray x : Data n X ℝ).data (fun _ => 1) = 0 := by
    unfold mmdSq Data.ofArray; ring
  have hG : 0 ≤ ∑ a, ∑ b, k (x a) (x b) := by simpa using hk.2 n x (fun _ => 1)
  have hT : ∑ a, k (x a) (x a) ≤ n * R := by
    refine (Finset.sum_le_sum fun a _ => hR a).trans ?_
    simp
  have hspread : spread k x (fun _ => 1) ≤ R := by
    rw [spread_one]
    have h4 : (∑ a, k (x a) (x a)) / n ≤ R := by rw [div_le_iff₀ hn]; linarith
    have h5 : 0 ≤ (∑ a, ∑ b, k (x a) (x b)) / n / n := by positivity
    linarith
  have hR0 : 0 ≤ R := by
    have := hk.2 1 (fun _ => x ⟨0, NeZero.pos n⟩) (fun _ => 1)
    exact le_trans (by simpa using this) (hR ⟨0, NeZero.pos n⟩)
  have h6 : (n - m : ℝ) / (n - 1) ≤ 1 ∧ 0 ≤ (n - m : ℝ) / (n - 1) := by
    have h7 : (m : ℝ) ≤ n := by exact_mod_cast hmn
    have h8 : (1 : ℝ) ≤ m := by exact_mod_cast hm
    exact ⟨div_le_one_of_le₀ (by linarith) (by linarith), div_nonneg (by linarith) (by linarith)⟩
  rw [hself, zero_add]
  calc (n - m : ℝ) / (n - 1) * (spread k x (fun _ => 1) / m) ≤ (n - m : ℝ) / (n - 1) * (R / m) :=
        mul_le_mul_of_nonneg_left (div_le_div_of_nonneg_right hspread hm'.le) h6.2
    _ ≤ 1 * (R / m) := mul_le_mul_of_nonneg_right h6.1 (by positivity)
    _ = R / m := one_mul _

/-! ### Cases -/

/-- Index draws that return the tuple `u` where it is asked for, and the first rows elsewhere. -/
def tupleDraw {n m : ℕ} (u : Fin m → Fin n) : IndexDraw := fun n' k s =>
  if h : n' = n ∧ k = m then (u (s.cast h.2) : ℤ) else ((s : ℕ) : ℤ)

theorem tupleDraw_contract {n m : ℕ} (u : Fin m → Fin n) (hu : Function.Injective u) : IndexDrawContract (tupleDraw u) := by
  intro n' k hk
  by_cases h : n' = n ∧ k = m
  · obtain ⟨rfl, rfl⟩ := h
    exact ⟨u, hu, fun s => by simp [tupleDraw]⟩
  · exact ⟨Fin.castLE hk, Fin.castLE_injective hk, fun s => by simp [tupleDraw, h]⟩

/-- Two orthogonal points of weights `1` and `3`, one of them drawn for the Nyström subset: the hypotheses can be met. -/
example : ∃ (U : Type) (_ : MeasurableSpace U) (μ : Measure U) (_ : IsProbabilityMeasure μ) (D : U → IndexDraw) (lstsq : RectLstsq ℝ) (err : U → ℝ),
    (∀ u, ∃ f : Fin 2 → Fin 2, ∃ st, herdingReduceApprox 1000 deltaKernel (nystromRowMean (D u) lstsq 1000 deltaKernel 1 1) false (.leaf none) 2
        ⟨(id : Fin 2 → Fin 2), ![1, 3]⟩ [0, 1] = .ok (⟨fun t => (f t : ℤ), fun _ => 1⟩, st) ∧
      mmdCompute 1000 deltaKernel ⟨(id : Fin 2 → Fin 2), ![1, 3]⟩ (Data.ofArray fun t => id (f t)) (.leaf none) = .ok (err u)) ∧
    Real.sqrt (∫ u, err u ^ 2 ∂μ) ≤ Real.sqrt (1 / 2) + Real.sqrt (1 / 8 + 1 / 2) := by
  obtain ⟨-, ⟨μ, hμ, hlaw⟩⟩ := sample_laws (n := 2) (size := 1) (by norm_num) (fun _ => 1) (by simp) (by norm_num [Fin.sum_univ_two])
  letI : MeasurableSpace (Fin 1 → Fin 2) := ⊤
  obtain ⟨lstsq, hl⟩ := exists_rectLstsq
  have hpsd : IsPSD deltaKernel := by
    refine ⟨deltaKernel_symm, fun n x c => ?_⟩
    have e : ∀ a b : Fin 2, deltaKernel a b = (if a = 0 then 1 else 0) * (if b = 0 then 1 else 0) + (if a = 1 then 1 else 0) * (if b = 1 then 1 else 0) := by
      intro a b
      fin_cases a <;> fin_cases b <;> simp [deltaKernel]
    have : ∑ i, ∑ j, c i * c j * deltaKernel (x i) (x j) = (∑ i, c i * if x i = 0 then 1 else 0) ^ 2 + (∑ i, c i * if x i = 1 then 1 else 0) ^ 2 := by
      simp only [e, sq, Finset.sum_mul_sum, ← Finset.sum_add_distrib]
      refine Finset.sum_congr rfl fun i _ => Finset.sum_congr rfl fun j _ => ?_
      ring
    rw [this]
    positivity
  obtain ⟨err, h1, -, h2⟩ := C63_nystrom_expected (μ := μ) (n := 2) (m := 1) (D := tupleDraw) (fun u => tupleDraw_contract u (Function.injective_of_subsingleton u)) hl 1000
    deltaKernel hpsd one_pos (by norm_num) (by rw [show (fun u : Fin 1 → Fin 2 => tupleDraw u 2 1) = fun u t => ((u t : ℕ) : ℤ) from by funext u t; simp [tupleDraw]]; exact hlaw) (.leaf none) (by left; decide) 2 (by norm_num) (by norm_num)
    ⟨(id : Fin 2 → Fin 2), ![1, 3]⟩ (fun j => by fin_cases j <;> simp) (fun S _ z hz j => by
      have := hz j
      rw [Fin.sum_univ_one, Subsingleton.elim j 0] at this
      simpa [deltaKernel, Subsingleton.elim j 0] using this) [0, 1] (by decide) 1 (fun j => by simp [deltaKernel])
  refine ⟨_, _, μ, hμ, tupleDraw, lstsq, err, h1, h2.trans (le_of_eq ?_)⟩
  congr 2
  norm_num [mmdSq, spread, avg, Fin.sum_univ_two, deltaKernel]

end Coreax
