import Verif.Lemmas.Kernel
import Verif.Lemmas.PSD
import Verif.Props.WeightsCases
import Verif.Props.HerdingRate
import Mathlib.Algebra.Order.Chebyshev

/-!
# Re-weighting a coreset: when the weights optimisers help, and when they do harm

`Coresubset.solve_weights` replaces the weights of a coreset by those of an optimiser. The statements compare the MMD of the
coreset before and after.
-/

set_option linter.unusedSectionVars false

namespace Coreax

open Spec

namespace Reweight

variable {K : Type*} [Field K] [LinearOrder K] [IsStrictOrderedRing K] {X Y : Type*} [Zero X]

theorem distSq_unweighted (k : X → X → K) {n m : ℕ} (x : Fin n → X) (y : Fin m → X) (u : Fin m → K) :
    mmdSq k x (fun _ => 1) y u = distSq k x (fun _ => 1 / (n : K)) y (fun i => u i / ∑ a, u a) := by
  rw [mmdSq_eq_distSq]
  simp

/-- No point of the simplex has a smaller sum of squares than the centre. -/
theorem sum_sq_ge {m : ℕ} (hm : 0 < m) (v : Fin m → K) (hv : OnSimplex v) : 1 / (m : K) ≤ ∑ i, v i ^ 2 := by
  have h := sq_sum_le_card_mul_sum_sq (s := Finset.univ) (f := v)
  rw [hv.2, Finset.card_univ, Fintype.card_fin] at h
  have hm' : (0 : K) < m := by exact_mod_cast hm
  rw [div_le_iff₀ hm']
  nlinarith

/-- Moving the weights of the points `y j` to the equal points `y' (g j)` changes no distance. -/
theorem distSq_push (k : X → X → K) {n m m' : ℕ} (x : Fin n → X) (w : Fin n → K) (y : Fin m → X) (y' : Fin m' → X) (g : Fin m → Fin m')
    (hg : ∀ j, y' (g j) = y j) (v : Fin m → K) :
    distSq k x w y' (fun j' => ∑ j, if g j = j' then v j else 0) = distSq k x w y v := by
  have push : ∀ F : Fin m' → K, ∑ j', (∑ j, if g j = j' then v j else 0) * F j' = ∑ j, v j * F (g j) := by
    intro F
    simp only [Finset.sum_mul, ite_mul, zero_mul]
    rw [Finset.sum_comm]
    exact Finset.sum_congr rfl fun j _ => by simp
  unfold distSq
  congr 1
  · congr 2
    refine Finset.sum_congr rfl fun i _ => ?_
    have := push (fun j' => w i * k (x i) (y' j'))
    simp only [hg] at this
    calc _ = ∑ j', (∑ j, if g j = j' then v j else 0) * (w i * k (x i) (y' j')) := Finset.sum_congr rfl fun j' _ => by ring
      _ = ∑ j, v j * (w i * k (x i) (y j)) := this
      _ = _ := Finset.sum_congr rfl fun j _ => by ring
  · have h1 : ∀ i', ∑ j', (∑ j, if g j = i' then v j else 0) * (∑ j, if g j = j' then v j else 0) * k (y' i') (y' j')
        = (∑ j, if g j = i' then v j else 0) * ∑ j, v j * k (y' i') (y j) := by
      intro i'
      have := push (fun j' => k (y' i') (y' j'))
      simp only [hg] at this
      rw [← this, Finset.mul_sum]
      exact Finset.sum_congr rfl fun j' _ => by ring
    simp only [h1]
    rw [push (fun i' => ∑ j, v j * k (y' i') (y j))]
    refine Finset.sum_congr rfl fun i _ => ?_
    rw [Finset.mul_sum, hg]
    exact Finset.sum_congr rfl fun j _ => by ring

theorem push_onSimplex {m m' : ℕ} (g : Fin m → Fin m') (v : Fin m → K) (hv : OnSimplex v) :
    OnSimplex (fun j' => ∑ j, if g j = j' then v j else 0) := by
  refine ⟨fun j' => Finset.sum_nonneg fun j _ => by split_ifs; exacts [hv.1 j, le_rfl], ?_⟩
  rw [Finset.sum_comm]
  simpa using hv.2

end Reweight

section

variable {K : Type*} [Field K] [LinearOrder K] [IsStrictOrderedRing K] {X Y : Type*} [Zero X]

/-- C64: the weights of the MMD optimiser, with any regularisation, compared with any other non-negative weights `u` of positive
sum: the squared MMD to the unweighted data exceeds that of `u` at most by `epsilon` times the excess of the sum of squares of the
normalised `u` over its least possible value `1/m`. -/
theorem C64_compare (qp : SimplexQP K) (hqp : QPContract qp) (big : K) (k : X → X → K) (hk : ∀ a b, k a b = k b a) {n m : ℕ}
    (hn : 0 < n) (hm : 0 < m) (dataset : DSet n X Y K) (coreset : DSet m X Y K) (h1 : dataset.sup = none) (h2 : coreset.sup = none) (eps : K)
    (heps : 0 ≤ eps) (hpsd : ∀ v : Fin m → K, 0 ≤ ∑ i, ∑ j, v i * v j * k (coreset.data i) (coreset.data j))
    (bs : PyTree (Option ℤ)) (hbs : ValidBlock bs) :
    ∃ v : Fin m → K, mmdWeightsSolve qp big k dataset coreset eps bs = .ok (fun i => .fin (v i)) ∧ OnSimplex v ∧
      ∀ u : Fin m → K, (∀ i, 0 ≤ u i) → 0 < ∑ i, u i →
        mmdSq k dataset.data (fun _ => 1) coreset.data v
          ≤ mmdSq k dataset.data (fun _ => 1) coreset.data u + eps * (∑ i, (u i / ∑ a, u a) ^ 2 - 1 / m) := by
  obtain ⟨v, h3, h4, h5⟩ := C29_optimal qp hqp big k hk hn hm dataset coreset h1 h2 eps heps hpsd bs hbs
  refine ⟨v, h3, h4, fun u hu hus => ?_⟩
  have h6 := h5 (fun i => u i / ∑ a, u a) ⟨fun i => div_nonneg (hu i) hus.le, by rw [← Finset.sum_div, div_self hus.ne']⟩
  rw [Reweight.distSq_unweighted, Reweight.distSq_unweighted]
  have e2 : (fun i => v i / ∑ a, v a) = v := by funext i; rw [h4.2, div_one]
  rw [e2]
  have h7 := mul_le_mul_of_nonneg_left (Reweight.sum_sq_ge hm v h4) heps
  simp only at h6
  rw [mul_sub]
  linarith

/-- C64: in particular solving for weights never makes an unweighted coreset of unweighted data worse, whatever the
regularisation. -/
theorem C64_never_worse (qp : SimplexQP K) (hqp : QPContract qp) (big : K) (k : X → X → K) (hk : ∀ a b, k a b = k b a) {n m : ℕ}
    (hn : 0 < n) (hm : 0 < m) (dataset : DSet n X Y K) (coreset : DSet m X Y K) (h1 : dataset.sup = none) (h2 : coreset.sup = none) (eps : K)
    (heps : 0 ≤ eps) (hpsd : ∀ v : Fin m → K, 0 ≤ ∑ i, ∑ j, v i * v j * k (coreset.data i) (coreset.data j))
    (bs : PyTree (Option ℤ)) (hbs : ValidBlock bs) :
    ∃ v : Fin m → K, mmdWeightsSolve qp big k dataset coreset eps bs = .ok (fun i => .fin (v i)) ∧ OnSimplex v ∧
      mmdSq k dataset.data (fun _ => 1) coreset.data v ≤ mmdSq k dataset.data (fun _ => 1) coreset.data (fun _ => 1) := by
  obtain ⟨v, h3, h4, h5⟩ := C64_compare qp hqp big k hk hn hm dataset coreset h1 h2 eps heps hpsd bs hbs
  have hm' : (0 : K) < m := by exact_mod_cast hm
  refine ⟨v, h3, h4, (h5 (fun _ => 1) (fun _ => zero_le_one) (by simpa using hm')).trans_eq ?_⟩
  have : ∑ _i : Fin m, ((1 : K) / ∑ _a : Fin m, (1 : K)) ^ 2 - 1 / m = 0 := by
    simp only [Finset.sum_const, Finset.card_univ, Fintype.card_fin, nsmul_eq_mul, mul_one]
    field_simp
    ring
  rw [this, mul_zero, add_zero]

/-- C64: without regularisation, a coreset having all the points of another one is at least as good after solving for weights. -/
theorem C64_more_points (qp : SimplexQP K) (hqp : QPContract qp) (big : K) (k : X → X → K) (hk : ∀ a b, k a b = k b a) {n m m' : ℕ}
    (hn : 0 < n) (hm : 0 < m) (dataset : DSet n X Y K) (coreset : DSet m X Y K) (larger : DSet m' X Y K) (h1 : dataset.sup = none)
    (h2 : coreset.sup = none) (h2' : larger.sup = none) (hsub : ∀ j, ∃ j', larger.data j' = coreset.data j)
    (hpsd : ∀ v : Fin m' → K, 0 ≤ ∑ i, ∑ j, v i * v j * k (larger.data i) (larger.data j))
    (bs : PyTree (Option ℤ)) (hbs : ValidBlock bs) :
    ∃ (v : Fin m → K) (v' : Fin m' → K), mmdWeightsSolve qp big k dataset coreset 0 bs = .ok (fun i => .fin (v i)) ∧
      mmdWeightsSolve qp big k dataset larger 0 bs = .ok (fun i => .fin (v' i)) ∧
      mmdSq k dataset.data (fun _ => 1) larger.data v' ≤ mmdSq k dataset.data (fun _ => 1) coreset.data v := by
  choose g hg using hsub
  have hm' : 0 < m' := Fin.pos (g ⟨0, hm⟩)
  have hpsd1 : ∀ v : Fin m → K, 0 ≤ ∑ i, ∑ j, v i * v j * k (coreset.data i) (coreset.data j) := by
    intro v
    have h := hpsd (fun j' => ∑ j, if g j = j' then v j else 0)
    have e := Reweight.distSq_push k coreset.data (fun _ => (0 : K)) coreset.data larger.data g hg v
    unfold distSq at e
    simp only [zero_mul, Finset.sum_const_zero, mul_zero, sub_zero, zero_add] at e
    rw [← e]
    exact h
  obtain ⟨v, h3, h4, -⟩ := C29_optimal qp hqp big k hk hn hm dataset coreset h1 h2 0 le_rfl hpsd1 bs hbs
  obtain ⟨v', h3', h4', h5'⟩ := C29_optimal qp hqp big k hk hn hm' dataset larger h1 h2' 0 le_rfl hpsd bs hbs
  refine ⟨v, v', h3, h3', ?_⟩
  have h6 := h5' _ (Reweight.push_onSimplex g v h4)
  simp only [zero_mul, add_zero] at h6
  rw [Reweight.distSq_push k _ _ coreset.data larger.data g hg v] at h6
  rw [Reweight.distSq_unweighted, Reweight.distSq_unweighted]
  have e1 : (fun i => v i / ∑ a, v a) = v := by funext i; rw [h4.2, div_one]
  have e2 : (fun i => v' i / ∑ a, v' a) = v' := by funext i; rw [h4'.2, div_one]
  rw [e1, e2]
  exact h6

/-- C64: without regularisation, a coreset in which every row of the data occurs is made exact. -/
theorem C64_covering (qp : SimplexQP K) (hqp : QPContract qp) (big : K) (k : X → X → K) (hk : ∀ a b, k a b = k b a) {n m : ℕ}
    (hn : 0 < n) (dataset : DSet n X Y K) (coreset : DSet m X Y K) (h1 : dataset.sup = none)
    (h2 : coreset.sup = none) (hcov : ∀ i, ∃ j, coreset.data j = dataset.data i)
    (hpsd : ∀ v : Fin m → K, 0 ≤ ∑ i, ∑ j, v i * v j * k (coreset.data i) (coreset.data j))
    (bs : PyTree (Option ℤ)) (hbs : ValidBlock bs) :
    ∃ v : Fin m → K, mmdWeightsSolve qp big k dataset coreset 0 bs = .ok (fun i => .fin (v i)) ∧
      mmdSq k dataset.data (fun _ => 1) coreset.data v ≤ 0 := by
  choose g hg using hcov
  have hm : 0 < m := Fin.pos (g ⟨0, hn⟩)
  have hn' : (n : K) ≠ 0 := by exact_mod_cast hn.ne'
  obtain ⟨v, h3, h4, h5⟩ := C29_optimal qp hqp big k hk hn hm dataset coreset h1 h2 0 le_rfl hpsd bs hbs
  refine ⟨v, h3, ?_⟩
  have hunif : OnSimplex (fun _ : Fin n => 1 / (n : K)) :=
    ⟨fun _ => div_nonneg zero_le_one (Nat.cast_nonneg n), by simp [hn']⟩
  have h6 := h5 _ (Reweight.push_onSimplex g _ hunif)
  simp only [zero_mul, add_zero] at h6
  rw [Reweight.distSq_push k _ _ dataset.data coreset.data g hg] at h6
  rw [Reweight.distSq_unweighted]
  have e1 : (fun i => v i / ∑ a, v a) = v := by funext i; rw [h4.2, div_one]
  rw [e1]
  refine h6.trans_eq ?_
  unfold distSq
  ring

/-- C64: kernel herding followed by the MMD optimiser keeps the rate of herding, for any regularisation. -/
theorem C64_herding (qp : SimplexQP K) (hqp : QPContract qp) (big : K) (k : X → X → K) (hk : ∀ a b, k a b = k b a) {n : ℕ} [NeZero n]
    (hpsd : ∀ {m : ℕ} (y : Fin m → X) (v : Fin m → K), 0 ≤ ∑ i, ∑ j, v i * v j * k (y i) (y j))
    (bs bs' : PyTree (Option ℤ)) (hbs : ValidBlock bs) (hbs' : ValidBlock bs') (size : ℕ) (hsize : 0 < size) (hle : size ≤ n)
    (x : Fin n → X) (unique : Bool)
    (ord : List (Fin (size + (size - size)))) (hord : ∀ t, t ∈ ord)
    (R : K) (hR : ∀ j, k (x j) (x j) ≤ R) (eps : K) (heps : 0 ≤ eps) :
    ∃ f : Fin size → Fin n, ∃ st, herdingReduce big k none unique bs size (Data.ofArray x) none ord
        = .ok (⟨fun t => (f t : ℤ), fun _ => 1⟩, st) ∧
      ∃ v : Fin size → K, mmdWeightsSolve (Y := Y) qp big k ⟨Data.ofArray x, none⟩ ⟨⟨fun t => x (f t), fun _ => 1⟩, none⟩ eps bs'
          = .ok (fun i => .fin (v i)) ∧ OnSimplex v ∧
        mmdSq k x (fun _ => 1) (fun t => x (f t)) v
          ≤ (R - (avg (fun _ : Fin n => (1 : K)) fun i => avg (fun _ : Fin n => (1 : K)) fun j => k (x i) (x j)) / 2) / size := by
  have hn : 0 < n := lt_of_lt_of_le hsize hle
  have hs' : (0 : K) < size := by exact_mod_cast hsize
  have hherd : ∃ f : Fin size → Fin n, ∃ st, herdingReduce big k none unique bs size (Data.ofArray x) none ord
        = .ok (⟨fun t => (f t : ℤ), fun _ => 1⟩, st) ∧
      mmdSq k x (fun _ => 1) (fun t => x (f t)) (fun _ => 1)
        ≤ (R - (avg (fun _ : Fin n => (1 : K)) fun i => avg (fun _ : Fin n => (1 : K)) fun j => k (x i) (x j)) / 2) / size := by
    cases unique with
    | true =>
      exact C48_herding_rate_unique big k hk bs hbs size hsize (Data.ofArray x) (fun c => hpsd x c) ⟨1, zero_lt_one, fun i => Or.inr rfl⟩
        (by simpa [PosCount, Data.ofArray] using hle) none (fun l h => by simp at h) ord hord R (fun j _ => hR j)
    | false =>
      obtain ⟨f, st, h1, h2⟩ := C48_herding_rate big k hk bs hbs size hsize hle (Data.ofArray x) (fun _ => zero_le_one)
        ⟨⟨0, hn⟩, zero_lt_one⟩ none (fun l h => by simp at h) ord hord R (fun j _ => hR j)
      refine ⟨f, st, h1, h2.trans ?_⟩
      have h0 : 0 ≤ avg (fun _ : Fin n => (1 : K)) fun i => avg (fun _ : Fin n => (1 : K)) fun j => k (x i) (x j) := by
        have := hpsd x (fun _ => 1 / (n : K))
        unfold avg
        simp only [one_mul, Finset.sum_const, Finset.card_univ, Fintype.card_fin, nsmul_eq_mul, mul_one]
        refine le_of_le_of_eq this ?_
        rw [Finset.sum_div]
        refine Finset.sum_congr rfl fun i _ => ?_
        rw [div_div, Finset.sum_div]
        exact Finset.sum_congr rfl fun j _ => by ring
      change (R - avg (fun _ : Fin n => (1 : K)) fun i => avg (fun _ : Fin n => (1 : K)) fun j => k (x i) (x j)) / _ ≤ _
      exact div_le_div_of_nonneg_right (by linarith) hs'.le
  obtain ⟨f, st, h1, h2⟩ := hherd
  obtain ⟨v, h3, h4, h5⟩ := C64_never_worse (Y := Y) qp hqp big k hk hn hsize ⟨Data.ofArray x, none⟩ ⟨⟨fun t => x (f t), fun _ => 1⟩, none⟩
    rfl rfl eps heps (fun v => hpsd _ v) bs' hbs'
  exact ⟨f, st, h1, v, h3, h4, h5.trans h2⟩

/-- C64: Bayesian quadrature weights, as sums without normalisation, are never worse than equal weights by more than
`epsilon / m`. -/
theorem C64_sbq (solve : LinSolve K) (hsolve : SolveContract solve) (big : K) (k : X → X → K) (hk : ∀ a b, k a b = k b a) {n m : ℕ}
    (hn : 0 < n) (hm : 0 < m) (dataset : DSet n X Y K) (coreset : DSet m X Y K) (h1 : dataset.sup = none) (h2 : coreset.sup = none) (eps : K)
    (heps : 0 ≤ eps) (bs : PyTree (Option ℤ)) (hbs : ValidBlock bs) (hpd : StrictPD k eps coreset.data) :
    ∃ v, sbqSolve solve big k dataset coreset eps bs = .ok v ∧
      distSq k dataset.data (fun _ => 1 / (n : K)) coreset.data v
        ≤ mmdSq k dataset.data (fun _ => 1) coreset.data (fun _ => 1) + eps / m := by
  obtain ⟨v, h3, h4⟩ := C30_optimal solve hsolve big k hk hn hm dataset coreset h1 h2 eps bs hbs hpd
  refine ⟨v, h3, ?_⟩
  have hm' : (m : K) ≠ 0 := by exact_mod_cast hm.ne'
  rw [Reweight.distSq_unweighted]
  have e1 : (fun _ : Fin m => (1 : K) / ∑ _a : Fin m, (1 : K)) = fun _ => 1 / (m : K) := by
    funext i; simp
  rw [e1]
  have e2 : eps * ∑ _i : Fin m, (1 / (m : K)) ^ 2 = eps / m := by
    rw [Finset.sum_const, Finset.card_univ, Fintype.card_fin, nsmul_eq_mul]
    field_simp
  have h0 : 0 ≤ eps * ∑ i, v i ^ 2 := mul_nonneg heps (Finset.sum_nonneg fun i _ => sq_nonneg _)
  rcases eq_or_ne (fun _ : Fin m => 1 / (m : K)) v with h | h
  · rw [h]
    have : 0 ≤ eps / m := div_nonneg heps (Nat.cast_nonneg m)
    linarith
  · have := h4 _ h
    linarith

end

/-! ### The metric -/

/-- C64: the MMD as `compute_metric` gives it, before and after solving for weights. -/
theorem C64_metric {X Y : Type*} [Zero X] (qp : SimplexQP ℝ) (hqp : QPContract qp) (big : ℝ) (k : X → X → ℝ) (hk : IsPSD k) {n m : ℕ}
    (hn : 0 < n) (hm : 0 < m) (dataset : DSet n X Y ℝ) (coreset : DSet m X Y ℝ) (h1 : dataset.sup = none) (h2 : coreset.sup = none)
    (hw : ∀ i, dataset.weights i = 1) (hc : ∀ j, coreset.weights j = 1) (eps : ℝ) (heps : 0 ≤ eps)
    (bs bs' : PyTree (Option ℤ)) (hbs : ValidBlock bs) (hbs' : ValidBlock bs') :
    ∃ v : Fin m → ℝ, mmdWeightsSolve qp big k dataset coreset eps bs = .ok (fun i => .fin (v i)) ∧
      ∃ before after, mmdCompute big k dataset.toData coreset.toData bs' = .ok before ∧
        mmdCompute big k dataset.toData ⟨coreset.data, v⟩ bs' = .ok after ∧ after ≤ before := by
  obtain ⟨v, h3, h4, h5⟩ := C64_never_worse qp hqp big k hk.1 hn hm dataset coreset h1 h2 eps heps (fun v => hk.2 m coreset.data v) bs hbs
  have hn' : (n : ℝ) ≠ 0 := by exact_mod_cast hn.ne'
  have hm' : (m : ℝ) ≠ 0 := by exact_mod_cast hm.ne'
  have e1 : dataset.weights = fun _ => 1 := funext hw
  have e2 : coreset.weights = fun _ => 1 := funext hc
  refine ⟨v, h3, _, _, C07_compute big k hn hm _ _ (by rw [e1]; simpa using hn') (by rw [e2]; simpa using hm') bs' hbs',
    C07_compute big k hn hm _ _ (by rw [e1]; simpa using hn') (by simp only; rw [h4.2]; exact one_ne_zero) bs' hbs', ?_⟩
  apply Real.sqrt_le_sqrt
  apply max_le_max le_rfl
  simp only [e1, e2]
  exact h5

/-! ### Harm -/

/-- The linear kernel on pairs of real numbers. -/
noncomputable def dotKernelR (a b : ℝ × ℝ) : ℝ := a.1 * b.1 + a.2 * b.2

theorem dotKernelR_psd : IsPSD dotKernelR := by
  refine ⟨fun a b => by unfold dotKernelR; ring, fun n x c => ?_⟩
  have : ∑ i, ∑ j, c i * c j * dotKernelR (x i) (x j) = (∑ i, c i * (x i).1) ^ 2 + (∑ i, c i * (x i).2) ^ 2 := by
    rw [sq, sq, Finset.sum_mul_sum, Finset.sum_mul_sum, ← Finset.sum_add_distrib]
    refine Finset.sum_congr rfl fun i _ => ?_
    rw [← Finset.sum_add_distrib]
    exact Finset.sum_congr rfl fun j _ => by unfold dotKernelR; ring
  rw [this]
  positivity

/-- The rows `a, b, b, b` with weights `9, 1, 1, 1`. -/
noncomputable def harmData : DSet 4 (ℝ × ℝ) Unit ℝ := ⟨⟨![(1, 0), (0, 1), (0, 1), (0, 1)], ![9, 1, 1, 1]⟩, none⟩

/-- The unweighted coreset `a, a, b, a`, which is exact for `harmData`. -/
noncomputable def harmCoreset : DSet 4 (ℝ × ℝ) Unit ℝ := ⟨⟨![(1, 0), (1, 0), (0, 1), (1, 0)], fun _ => 1⟩, none⟩

/-- C64: the optimiser does not see the weights of the data. Of weighted data, whichever exact solver is used, it makes a
coreset that represented the data exactly strictly worse. -/
theorem C64_weighted_harm (qp : SimplexQP ℝ) (hqp : QPContract qp) :
    mmdSq dotKernelR harmData.data harmData.weights harmCoreset.data harmCoreset.weights = 0 ∧
    ∃ v : Fin 4 → ℝ, mmdWeightsSolve qp 1000 dotKernelR harmData harmCoreset 0 (.leaf none) = .ok (fun i => .fin (v i)) ∧
      mmdSq dotKernelR harmData.data harmData.weights harmCoreset.data v = 1 / 2 := by
  constructor
  · simp only [mmdSq, avg, harmData, harmCoreset, dotKernelR, Fin.sum_univ_four, Matrix.cons_val]
    norm_num
  · obtain ⟨v, h1, h2, h3⟩ := C29_optimal (X := ℝ × ℝ) (Y := Unit) qp hqp 1000 dotKernelR dotKernelR_psd.1 (n := 4) (m := 4)
      (by norm_num) (by norm_num) harmData harmCoreset rfl rfl 0 le_rfl (fun v => dotKernelR_psd.2 4 _ v) (.leaf none) (by left; decide)
    refine ⟨v, h1, ?_⟩
    have hs := h2.2
    have h4 := h3 ![1/4, 0, 3/4, 0] ⟨fun i => by fin_cases i <;> norm_num, by simp [Fin.sum_univ_four]; norm_num⟩
    rw [Fin.sum_univ_four] at hs
    have e : v 2 = 3/4 := by
      have hv3 : v 3 = 1 - v 0 - v 1 - v 2 := by linarith
      simp only [distSq, harmData, harmCoreset, dotKernelR, Fin.sum_univ_four, Matrix.cons_val] at h4
      rw [hv3] at h4
      norm_num at h4
      have : (v 2 - 3/4) ^ 2 ≤ 0 := by nlinarith
      have := pow_eq_zero_iff (two_ne_zero) |>.1 (le_antisymm this (sq_nonneg _))
      linarith
    have hv3 : v 3 = 1/4 - v 0 - v 1 := by linarith
    simp only [mmdSq, avg, harmData, harmCoreset, dotKernelR, Fin.sum_univ_four, Matrix.cons_val]
    rw [e, hv3]
    have hd : v 0 + v 1 + 3/4 + (1/4 - v 0 - v 1) = 1 := by ring
    rw [hd]
    norm_num
    ring

/-- C64: the Bayesian quadrature weights do not sum to one, and the metric divides by their sum: solving for them can make an
unweighted coreset of unweighted data worse. -/
theorem C64_sbq_harm :
    ∃ (dataset : DSet 1 (ℚ × ℚ) Unit ℚ) (coreset : DSet 2 (ℚ × ℚ) Unit ℚ) (v : Fin 2 → ℚ), StrictPD dotKernel 0 coreset.data ∧
      dataset.weights = (fun _ => 1) ∧ coreset.weights = (fun _ => 1) ∧
      (∀ solve : LinSolve ℚ, SolveContract solve → sbqSolve solve 1000 dotKernel dataset coreset 0 (.leaf none) = .ok v) ∧
      mmdSq dotKernel dataset.data dataset.weights coreset.data coreset.weights < mmdSq dotKernel dataset.data dataset.weights coreset.data v := by
  have hpd : StrictPD dotKernel 0 (![(1, 0), (0, 1)] : Fin 2 → ℚ × ℚ) := by
    intro v hv
    simp only [Fin.sum_univ_two, dotKernel, Matrix.cons_val_zero, Matrix.cons_val_one, zero_mul, add_zero]
    have : v 0 ≠ 0 ∨ v 1 ≠ 0 := by
      obtain ⟨i, hi⟩ := hv
      fin_cases i
      · exact Or.inl hi
      · exact Or.inr hi
    rcases this with h | h
    · have := sq_pos_of_ne_zero h
      nlinarith [sq_nonneg (v 1)]
    · have := sq_pos_of_ne_zero h
      nlinarith [sq_nonneg (v 0)]
  refine ⟨⟨⟨![(1/5, 0)], fun _ => 1⟩, none⟩, ⟨⟨![(1, 0), (0, 1)], fun _ => 1⟩, none⟩, ![1/5, 0], hpd, rfl, rfl, ?_, ?_⟩
  · intro solve hsolve
    obtain ⟨v, h1, h2⟩ := C30_optimal (X := ℚ × ℚ) (Y := Unit) solve hsolve 1000 dotKernel (fun a b => by unfold dotKernel; ring) (by norm_num) (by norm_num)
      ⟨⟨![(1/5, 0)], fun _ => 1⟩, none⟩ ⟨⟨![(1, 0), (0, 1)], fun _ => 1⟩, none⟩ rfl rfl 0 (.leaf none) (by left; decide) hpd
    rw [h1]
    by_contra hne
    have := h2 ![1/5, 0] (fun h => hne (by rw [h]))
    simp only [distSq, dotKernel, Fin.sum_univ_two, Fin.sum_univ_one, Fin.isValue, Matrix.cons_val_zero, Matrix.cons_val_one, zero_mul, add_zero, Nat.cast_one] at this
    nlinarith [sq_nonneg (v 0 - 1/5), sq_nonneg (v 1)]
  · decide +kernel

/-! ### Cases -/

/-- The coreset `a, a, b, a` is the one kernel herding selects of the weighted rows `a, b, b, b`. -/
example : (herdingReduce 1000 dotKernel none false (.leaf none) 4
      (⟨![(1, 0), (0, 1), (0, 1), (0, 1)], ![9, 1, 1, 1]⟩ : Data 4 (ℚ × ℚ) ℚ) none [0, 1, 2, 3]).toOption.map (fun r => List.ofFn r.1.data)
    = some [0, 0, 1, 0] := by decide +kernel

example : ∃ qp : SimplexQP ℝ, QPContract qp ∧ ∃ v : Fin 4 → ℝ,
    mmdWeightsSolve qp 1000 dotKernelR harmData harmCoreset 0 (.leaf none) = .ok (fun i => .fin (v i)) := by
  obtain ⟨qp, hqp⟩ := exists_qp
  obtain ⟨-, v, h, -⟩ := C64_weighted_harm qp hqp
  exact ⟨qp, hqp, v, h⟩

/-- Herding two of three rows and solving with regularisation. -/
example : ∃ qp : SimplexQP ℝ, ∃ f : Fin 2 → Fin 3, ∃ st, herdingReduce 1000 dotKernelR none true (.leaf none) 2
      (Data.ofArray (![(1, 0), (0, 1), (1, 1)] : Fin 3 → ℝ × ℝ)) none [0, 1] = .ok (⟨fun t => (f t : ℤ), fun _ => 1⟩, st) ∧
    ∃ v : Fin 2 → ℝ, mmdSq dotKernelR (![(1, 0), (0, 1), (1, 1)] : Fin 3 → ℝ × ℝ) (fun _ => 1) (fun t => (![(1, 0), (0, 1), (1, 1)] : Fin 3 → ℝ × ℝ) (f t)) v
      ≤ (2 - (avg (fun _ : Fin 3 => (1 : ℝ)) fun i => avg (fun _ : Fin 3 => (1 : ℝ)) fun j =>
          dotKernelR ((![(1, 0), (0, 1), (1, 1)] : Fin 3 → ℝ × ℝ) i) ((![(1, 0), (0, 1), (1, 1)] : Fin 3 → ℝ × ℝ) j)) / 2) / (2 : ℕ) := by
  obtain ⟨qp, hqp⟩ := exists_qp
  obtain ⟨f, st, h, v, -, -, h'⟩ := C64_herding (Y := Unit) qp hqp 1000 dotKernelR dotKernelR_psd.1 (fun y v => dotKernelR_psd.2 _ y v)
    (.leaf none) (.leaf none) (by left; decide) (by left; decide) 2 (by norm_num) (by norm_num)
    (![(1, 0), (0, 1), (1, 1)] : Fin 3 → ℝ × ℝ) true [0, 1] (by decide) 2
    (by intro j; fin_cases j <;> norm_num [dotKernelR]) (1/10) (by norm_num)
  exact ⟨qp, f, st, h, v, h'⟩

/-- Three rows of the real line with the kernel `1 + x y` and a coreset of two points; regularisation 1/10. -/
example : ∃ qp : SimplexQP ℝ, ∃ v : Fin 2 → ℝ, mmdSq (fun a b : ℝ => 1 + a * b) ![1, 2, 6] (fun _ => 1) ![1, 6] v
    ≤ mmdSq (fun a b : ℝ => 1 + a * b) ![1, 2, 6] (fun _ => 1) ![1, 6] ![3, 1] + 1 / 10 * (∑ i, (![3, 1] i / ∑ a, (![3, 1] : Fin 2 → ℝ) a) ^ 2 - 1 / (2 : ℕ)) := by
  obtain ⟨qp, hqp⟩ := exists_qp
  obtain ⟨v, -, -, h⟩ := C64_compare (Y := Unit) qp hqp 1000 (fun a b : ℝ => 1 + a * b) (fun a b => by ring) (n := 3) (m := 2) (by norm_num) (by norm_num)
    ⟨⟨![1, 2, 6], fun _ => 1⟩, none⟩ ⟨⟨![1, 6], fun _ => 1⟩, none⟩ rfl rfl (1 / 10) (by norm_num)
    (fun v => ((isPSD_const zero_le_one).add (isPSD_rankOne fun x : ℝ => x)).2 _ _ v) (.leaf none) (.inl rfl)
  exact ⟨qp, v, h ![3, 1] (by intro i; fin_cases i <;> norm_num) (by norm_num [Fin.sum_univ_two])⟩

example : ∃ qp : SimplexQP ℝ, ∃ v : Fin 2 → ℝ, mmdSq (fun a b : ℝ => 1 + a * b) ![1, 2, 6] (fun _ => 1) ![1, 6] v
    ≤ mmdSq (fun a b : ℝ => 1 + a * b) ![1, 2, 6] (fun _ => 1) ![1, 6] fun _ => 1 := by
  obtain ⟨qp, hqp⟩ := exists_qp
  obtain ⟨v, -, -, h⟩ := C64_never_worse (Y := Unit) qp hqp 1000 (fun a b : ℝ => 1 + a * b) (fun a b => by ring) (n := 3) (m := 2) (by norm_num) (by norm_num)
    ⟨⟨![1, 2, 6], fun _ => 1⟩, none⟩ ⟨⟨![1, 6], fun _ => 1⟩, none⟩ rfl rfl (1 / 10) (by norm_num)
    (fun v => ((isPSD_const zero_le_one).add (isPSD_rankOne fun x : ℝ => x)).2 _ _ v) (.leaf none) (.inl rfl)
  exact ⟨qp, v, h⟩

example : ∃ (v : Fin 1 → ℝ) (v' : Fin 2 → ℝ), mmdSq (fun a b : ℝ => 1 + a * b) ![1, 2, 6] (fun _ => 1) ![6, 1] v'
    ≤ mmdSq (fun a b : ℝ => 1 + a * b) ![1, 2, 6] (fun _ => 1) ![1] v := by
  obtain ⟨qp, hqp⟩ := exists_qp
  obtain ⟨v, v', -, -, h⟩ := C64_more_points (Y := Unit) qp hqp 1000 (fun a b : ℝ => 1 + a * b) (fun a b => by ring) (n := 3) (m := 1) (m' := 2) (by norm_num) (by norm_num)
    ⟨⟨![1, 2, 6], fun _ => 1⟩, none⟩ ⟨⟨![1], fun _ => 1⟩, none⟩ ⟨⟨![6, 1], fun _ => 1⟩, none⟩ rfl rfl rfl (fun _ => ⟨1, by simp⟩)
    (fun v => ((isPSD_const zero_le_one).add (isPSD_rankOne fun x : ℝ => x)).2 _ _ v) (.leaf none) (.inl rfl)
  exact ⟨v, v', h⟩

/-- Two equal rows and a third: a coreset of the two different points in the other order. -/
example : ∃ v : Fin 2 → ℝ, mmdSq (fun a b : ℝ => 1 + a * b) ![1, 1, 6] (fun _ => 1) ![6, 1] v ≤ 0 := by
  obtain ⟨qp, hqp⟩ := exists_qp
  obtain ⟨v, -, h⟩ := C64_covering (Y := Unit) qp hqp 1000 (fun a b : ℝ => 1 + a * b) (fun a b => by ring) (n := 3) (m := 2) (by norm_num)
    ⟨⟨![1, 1, 6], fun _ => 1⟩, none⟩ ⟨⟨![6, 1], fun _ => 1⟩, none⟩ rfl rfl (by intro i; fin_cases i; exacts [⟨1, rfl⟩, ⟨1, rfl⟩, ⟨0, rfl⟩])
    (fun v => ((isPSD_const zero_le_one).add (isPSD_rankOne fun x : ℝ => x)).2 _ _ v) (.leaf none) (.inl rfl)
  exact ⟨v, h⟩

example : ∃ v : Fin 2 → ℝ, distSq (fun a b : ℝ => 1 + a * b) ![1, 2, 6] (fun _ => 1 / (3 : ℕ)) ![1, 6] v
    ≤ mmdSq (fun a b : ℝ => 1 + a * b) ![1, 2, 6] (fun _ => 1) ![1, 6] (fun _ => 1) + 1 / 10 / (2 : ℕ) := by
  obtain ⟨solve, hs⟩ := exists_solve (K := ℝ)
  obtain ⟨v, -, h⟩ := C64_sbq (Y := Unit) solve hs 1000 (fun a b : ℝ => 1 + a * b) (fun a b => by ring) (n := 3) (m := 2) (by norm_num) (by norm_num)
    ⟨⟨![1, 2, 6], fun _ => 1⟩, none⟩ ⟨⟨![1, 6], fun _ => 1⟩, none⟩ rfl rfl (1 / 10) (by norm_num) (.leaf none) (.inl rfl)
    (fun v hv => by
      have h := ((isPSD_const zero_le_one).add (isPSD_rankOne fun x : ℝ => x)).2 _ ![1, 6] v
      have h' : 0 < ∑ i, v i ^ 2 := by
        obtain ⟨i, hi⟩ := hv
        exact Finset.sum_pos' (fun i _ => sq_nonneg _) ⟨i, Finset.mem_univ _, by positivity⟩
      dsimp only at h ⊢
      linarith)
  exact ⟨v, h⟩

example := fun (qp : SimplexQP ℝ) (hqp : QPContract qp) => C64_metric (Y := Unit) qp hqp 1000 (fun a b : ℝ => 1 + a * b) ((isPSD_const zero_le_one).add (isPSD_rankOne fun x : ℝ => x)) (n := 3) (m := 2) (by norm_num) (by norm_num)
    ⟨⟨![1, 2, 6], fun _ => 1⟩, none⟩ ⟨⟨![1, 6], fun _ => 1⟩, none⟩ rfl rfl (fun _ => rfl) (fun _ => rfl) (1 / 10) (by norm_num) (.leaf none) (.leaf none) (.inl rfl) (.inl rfl)

end Coreax
