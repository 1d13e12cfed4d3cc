import Verif.Model.Approximation
import Verif.Props.Mean
import Verif.Lemmas.Recombination

/-!
# Properties of the approximate kernels (C32)
-/

set_option linter.unusedSectionVars false

namespace Coreax

open Spec

variable {K X : Type*} [Field K] [LinearOrder K] [IsStrictOrderedRing K] [Zero X]

/-- Contract of `jr.choice` without replacement: distinct indices of the data. -/
def IndexDrawContract (draw : IndexDraw) : Prop :=
  ∀ n k, k ≤ n → ∃ S : Fin k → Fin n, Function.Injective S ∧ ∀ s, draw n k s = ((S s : ℕ) : ℤ)

/-- Contract of `jnp.linalg.lstsq` in exact arithmetic: a least squares solution (the residual is orthogonal to the columns). -/
def RectLstsqContract (lstsq : RectLstsq K) : Prop :=
  ∀ {t f : ℕ} (A : Fin t → Fin f → K) (b : Fin t → K) (l : Fin f), ∑ i, A i l * (∑ j, A i j * lstsq A b j - b i) = 0

/-- The columns of `A` are linearly independent. -/
def Spec.IndepColumns {t f : ℕ} (A : Fin t → Fin f → K) : Prop := ∀ z : Fin f → K, (∀ i, ∑ j, A i j * z j = 0) → ∀ j, z j = 0

/-- The unweighted mean of each row of the Gram matrix. -/
def Spec.rowMeans (k : X → X → K) {n : ℕ} (x : Fin n → X) (i : Fin n) : K := (∑ a, k (x a) (x i)) / n

/-- A consistent system is solved exactly. -/
theorem lstsq_consistent {lstsq : RectLstsq K} (h : RectLstsqContract lstsq) {t f : ℕ} (A : Fin t → Fin f → K) (b : Fin t → K)
    (a : Fin f → K) (ha : ∀ i, ∑ j, A i j * a j = b i) (i : Fin t) : ∑ j, A i j * lstsq A b j = b i := by
  have key : ∑ i, (∑ j, A i j * lstsq A b j - b i) ^ 2 = 0 := by
    have e : ∀ i, (∑ j, A i j * lstsq A b j - b i) ^ 2 = ∑ l, (lstsq A b l - a l) * (A i l * (∑ j, A i j * lstsq A b j - b i)) := by
      intro i
      have e2 : (∑ j, A i j * lstsq A b j - b i) = ∑ l, (lstsq A b l - a l) * A i l := by
        rw [← ha i, ← Finset.sum_sub_distrib]
        exact Finset.sum_congr rfl fun l _ => by ring
      rw [sq]
      nth_rw 1 [e2]
      rw [Finset.sum_mul]
      exact Finset.sum_congr rfl fun l _ => by ring
    simp only [e]
    rw [Finset.sum_comm]
    refine Finset.sum_eq_zero fun l _ => ?_
    rw [← Finset.mul_sum, h A b l, mul_zero]
  have := (Finset.sum_eq_zero_iff_of_nonneg (fun i _ => sq_nonneg _)).1 key i (Finset.mem_univ _)
  exact sub_eq_zero.1 (pow_eq_zero_iff (two_ne_zero) |>.1 this)

/-- A consistent system with independent columns has its solution returned. -/
theorem lstsq_unique {lstsq : RectLstsq K} (h : RectLstsqContract lstsq) {t f : ℕ} (A : Fin t → Fin f → K) (b : Fin t → K) (hA : IndepColumns A)
    (a : Fin f → K) (ha : ∀ i, ∑ j, A i j * a j = b i) : lstsq A b = a := by
  funext j
  refine sub_eq_zero.1 (hA (fun j => lstsq A b j - a j) (fun i => ?_) j)
  simp only [mul_sub, Finset.sum_sub_distrib, ha, lstsq_consistent h A b a ha, sub_self]

theorem ofArray_sum {n : ℕ} (hn : 0 < n) (x : Fin n → X) : ∑ j, (Data.ofArray (K := K) x).weights j ≠ 0 := by
  simp only [Data.ofArray, Finset.sum_const, Finset.card_univ, Fintype.card_fin, nsmul_eq_mul, mul_one]
  exact_mod_cast hn.ne'

theorem target_mean (big : K) (k : X → X → K) (hk : ∀ a b, k a b = k b a) {n t : ℕ} (hn : 0 < n) (ht : 0 < t) (x : Fin n → X) (y : Fin t → X) :
    computeMean big k (Data.ofArray x) (Data.ofArray y) .zero (.leaf none) = .ok (List.ofFn fun j => (∑ a, k (x a) (y j)) / (n : K)) := by
  rw [C05_mean_axis0 big k hk hn ht (Data.ofArray x) (Data.ofArray y) (ofArray_sum hn x) _ (by left; decide)]
  congr 2
  funext j
  simp [Data.ofArray, avg]

theorem asVec_ofFn {n : ℕ} (f : Fin n → K) : asVec n (List.ofFn f) = f := by
  funext i
  simp [asVec]

/-! ### Feasible numbers of points -/

/-- C32: the numbers of points must be positive. -/
theorem C32_check_init (numKernel numTrain : ℤ) :
    regressionCheckInit numKernel numTrain = if 0 < numKernel ∧ 0 < numTrain then .ok () else .error .valueError := by
  unfold regressionCheckInit
  split_ifs <;> first | rfl | omega

/-- C32: with positive numbers of points the row mean is refused (with `ValueError`) exactly when more training points than data are asked for, or
more features; ANNchor features have no such limit, and Monte Carlo draws one feature less than the number given. -/
theorem C32_feasible (draw : IndexDraw) (lstsq : RectLstsq K) (big : K) (k : X → X → K) (hk : ∀ a b, k a b = k b a) (numKernel numTrain : ℕ)
    [NeZero numKernel] (hT : 0 < numTrain) {n : ℕ} [NeZero n] (x : Fin n → X) :
    ((∃ r, nystromRowMean draw lstsq big k numKernel numTrain x = .ok r) ↔ numKernel ≤ n ∧ numTrain ≤ n) ∧
    ((∃ r, monteCarloRowMean draw lstsq big k numKernel numTrain x = .ok r) ↔ numKernel ≤ n + 1 ∧ numTrain ≤ n) ∧
    ((∃ r, annchorRowMean draw lstsq big k numKernel numTrain x = .ok r) ↔ numTrain ≤ n) ∧
    (∀ e, (nystromRowMean draw lstsq big k numKernel numTrain x = .error e ∨ monteCarloRowMean draw lstsq big k numKernel numTrain x = .error e ∨
      annchorRowMean draw lstsq big k numKernel numTrain x = .error e) → e = .valueError) := by
  have hn := NeZero.pos n
  have hK := NeZero.pos numKernel
  have h1 : ∀ {f : ℕ} (features : Fin n → Fin f → K), randomLeastSquares draw lstsq x features numTrain
      (fun y => computeMean big k (Data.ofArray x) (Data.ofArray y) .zero (.leaf none)) =
      if numTrain ≤ n then .ok (fun i => ∑ j, features i j * lstsq (fun s => features (gatherIdx n (draw n numTrain s)))
        (fun s => (∑ a, k (x a) (x (gatherIdx n (draw n numTrain s)))) / (n : K)) j) else .error .valueError := by
    intro f features
    unfold randomLeastSquares randomIndices
    by_cases h : numTrain ≤ n
    · simp only [not_lt.2 h, if_false, gt_iff_lt, h, if_true]
      rw [target_mean big k hk hn hT]
      simp only [asVec_ofFn]
    · simp only [not_le.1 h, gt_iff_lt, h, if_true, if_false]
  have h2 : ∀ {f : ℕ} (features : Fin n → Fin f → K), (∃ r, randomLeastSquares draw lstsq x features numTrain
      (fun y => gramianRowMean big k (Data.ofArray y) (.leaf none)) = .ok r) ∧ numTrain ≤ n ∨ randomLeastSquares draw lstsq x features numTrain
      (fun y => gramianRowMean big k (Data.ofArray y) (.leaf none)) = .error .valueError ∧ ¬ numTrain ≤ n := by
    intro f features
    unfold randomLeastSquares randomIndices gramianRowMean
    by_cases h : numTrain ≤ n
    · left
      simp only [not_lt.2 h, if_false, gt_iff_lt]
      rw [target_mean big k hk hT hT]
      exact ⟨⟨_, rfl⟩, h⟩
    · right
      simp only [not_le.1 h, gt_iff_lt, if_true, h, not_false_eq_true, and_self]
  refine ⟨?_, ?_, ?_, ?_⟩
  · unfold nystromRowMean
    by_cases h : numKernel ≤ n
    · simp only [randomIndices, gt_iff_lt, not_lt.2 h, if_false, h, true_and]
      rcases h2 (fun i j => k (x i) (x (gatherIdx n (draw n numKernel j)))) with ⟨a, b⟩ | ⟨a, b⟩
      · simp only [a, b]
      · simp [a, b]
    · simp [randomIndices, not_le.1 h, h]
  · unfold monteCarloRowMean
    by_cases h : numKernel ≤ n + 1
    · have h' : ¬ n < numKernel - 1 := by omega
      simp only [randomIndices, gt_iff_lt, h', if_false, h, true_and]
      rw [h1]
      split_ifs with h3 <;> simp [h3]
    · have h' : n < numKernel - 1 := by omega
      simp [randomIndices, h', h]
  · unfold annchorRowMean
    rw [h1]
    split_ifs with h3 <;> simp [h3]
  · intro e he
    rcases he with he | he | he
    · unfold nystromRowMean randomIndices at he
      split_ifs at he
      · simpa using he.symm
      · simp only at he
        rcases h2 (fun i j => k (x i) (x (gatherIdx n (draw n numKernel j)))) with ⟨⟨r, a⟩, b⟩ | ⟨a, b⟩
        · rw [a] at he; cases he
        · rw [a] at he; simpa using he.symm
    · unfold monteCarloRowMean at he
      by_cases h : numKernel - 1 > n
      · simp only [randomIndices, h, if_true] at he
        simpa using he.symm
      · simp only [randomIndices, h, if_false] at he
        rw [h1] at he
        split_ifs at he
        simpa using he.symm
    · unfold annchorRowMean at he
      rw [h1] at he
      split_ifs at he
      simpa using he.symm

example (draw : IndexDraw) (lstsq : RectLstsq ℚ) : ¬ ∃ r, nystromRowMean draw lstsq 1000 (fun a b : ℚ => a * b) 4 2 ![1, 2, 3] = .ok r := by
  rw [(C32_feasible draw lstsq 1000 (fun a b : ℚ => a * b) (fun a b => mul_comm a b) 4 2 (by norm_num) ![1, 2, 3]).1]
  decide

/-! ### Exactness -/

/-- What regression on a random subset returns when the row means are a combination of the features and the subset determines it. -/
theorem rls_exact {draw : IndexDraw} (hdraw : IndexDrawContract draw) {lstsq : RectLstsq K} (hl : RectLstsqContract lstsq) (big : K)
    (k : X → X → K) (hk : ∀ a b, k a b = k b a) {n f t : ℕ} [NeZero n] (ht : 0 < t) (htn : t ≤ n) (x : Fin n → X) (features : Fin n → Fin f → K)
    (a : Fin f → K) (ha : ∀ i, ∑ j, features i j * a j = rowMeans k x i)
    (hind : ∀ S : Fin t → Fin n, (∀ s, draw n t s = ((S s : ℕ) : ℤ)) → IndepColumns (fun s => features (S s))) :
    randomLeastSquares draw lstsq x features t (fun y => computeMean big k (Data.ofArray x) (Data.ofArray y) .zero (.leaf none))
      = .ok (rowMeans k x) := by
  obtain ⟨S, -, hS⟩ := hdraw n t htn
  unfold randomLeastSquares randomIndices
  simp only [gt_iff_lt, not_lt.2 htn, if_false]
  rw [target_mean big k hk (NeZero.pos n) ht]
  have e := lstsq_unique hl (fun s => features (S s)) (fun s => rowMeans k x (S s)) (hind S hS) a (fun s => ha (S s))
  simp only [asVec_ofFn, hS, gatherIdx_coe]
  refine congrArg Except.ok (funext fun i => ?_)
  rw [← ha i]
  exact Finset.sum_congr rfl fun j _ => congrArg (features i j * ·) (congrFun e j)

/-- C32, Monte Carlo: the approximation is exact whenever the row means are a combination of the selected features and the features are
independent on the training points. -/
theorem C32_monte_carlo_exact {draw : IndexDraw} (hdraw : IndexDrawContract draw) {lstsq : RectLstsq K} (hl : RectLstsqContract lstsq) (big : K)
    (k : X → X → K) (hk : ∀ a b, k a b = k b a) {n numKernel t : ℕ} [NeZero n] (ht : 0 < t) (htn : t ≤ n) (hkn : numKernel ≤ n + 1) (x : Fin n → X)
    (hspan : ∀ F : Fin (numKernel - 1) → Fin n, Function.Injective F → (∀ j, draw n (numKernel - 1) j = ((F j : ℕ) : ℤ)) →
      (∃ a : Fin (numKernel - 1) → K, ∀ i, ∑ j, k (x i) (x (F j)) * a j = rowMeans k x i) ∧
      ∀ S : Fin t → Fin n, (∀ s, draw n t s = ((S s : ℕ) : ℤ)) → IndepColumns (fun s j => k (x (S s)) (x (F j)))) :
    monteCarloRowMean draw lstsq big k numKernel t x = .ok (rowMeans k x) := by
  obtain ⟨F, hFi, hF⟩ := hdraw n (numKernel - 1) (by omega)
  obtain ⟨⟨a, ha⟩, hS⟩ := hspan F hFi hF
  unfold monteCarloRowMean randomIndices
  simp only [gt_iff_lt, show ¬ n < numKernel - 1 by omega, if_false, hF, gatherIdx_coe]
  exact rls_exact hdraw hl big k hk ht htn x (fun i j => k (x i) (x (F j))) a ha hS

/-- C32: with all points as features (`num_kernel_points = n + 1`) and as training points, and an invertible Gram matrix, the Monte Carlo row mean is exact. -/
theorem C32_monte_carlo_full {draw : IndexDraw} (hdraw : IndexDrawContract draw) {lstsq : RectLstsq K} (hl : RectLstsqContract lstsq) (big : K)
    (k : X → X → K) (hk : ∀ a b, k a b = k b a) {n : ℕ} [NeZero n] (x : Fin n → X) (hgram : IndepColumns (fun i j => k (x i) (x j))) :
    monteCarloRowMean draw lstsq big k (n + 1) n x = .ok (rowMeans k x) := by
  refine C32_monte_carlo_exact hdraw hl big k hk (NeZero.pos n) le_rfl le_rfl x ?_
  intro F hF hdF
  have hFb : Function.Bijective F := Finite.injective_iff_bijective.1 hF
  constructor
  · refine ⟨fun _ => 1 / (n : K), fun i => ?_⟩
    have : ∑ j, k (x i) (x (F j)) * (1 / (n : K)) = ∑ a, k (x i) (x a) * (1 / (n : K)) :=
      hFb.sum_comp (fun a => k (x i) (x a) * (1 / (n : K)))
    rw [this, rowMeans, Finset.sum_div]
    exact Finset.sum_congr rfl fun a _ => by rw [hk (x i) (x a)]; ring
  · intro S hS z hz
    obtain ⟨S', hS'i, hS'⟩ := hdraw n n le_rfl
    have hSS : S = S' := by
      funext s
      have := (hS s).symm.trans (hS' s)
      exact Fin.ext (by exact_mod_cast this)
    have hSb : Function.Bijective S := hSS ▸ Finite.injective_iff_bijective.1 hS'i
    have hF' := hF
    have e : ∀ i, ∑ j, k (x i) (x j) * (∑ j', if F j' = j then z j' else 0) = 0 := by
      intro i
      obtain ⟨s, rfl⟩ := hSb.2 i
      refine Eq.trans ?_ (hz s)
      simp only [Finset.mul_sum]
      rw [Finset.sum_comm]
      refine Finset.sum_congr rfl fun j' _ => ?_
      simp
    intro j
    have := hgram _ e (F j)
    rw [Finset.sum_eq_single j] at this
    · simpa using this
    · intro b _ hb
      rw [if_neg (fun h => hb (hF h))]
    · intro hk; exact absurd (Finset.mem_univ _) hk

/-- C32: with `num_kernel_points = 1` (which the constructor accepts) the Monte Carlo row mean is zero, for every kernel and dataset. -/
theorem C32_monte_carlo_single (draw : IndexDraw) (lstsq : RectLstsq K) (big : K) (k : X → X → K) (hk : ∀ a b, k a b = k b a) {n t : ℕ} [NeZero n]
    (ht : 0 < t) (htn : t ≤ n) (x : Fin n → X) : monteCarloRowMean draw lstsq big k 1 t x = .ok (fun _ => 0) := by
  unfold monteCarloRowMean randomLeastSquares randomIndices
  simp only [gt_iff_lt, Nat.sub_self, Nat.not_lt_zero, if_false, not_lt.2 htn]
  rw [target_mean big k hk (NeZero.pos n) ht]
  refine congrArg Except.ok (funext fun i => ?_)
  exact Finset.sum_eq_zero (fun j _ => by exact j.elim0)

example (draw : IndexDraw) (lstsq : RectLstsq ℚ) : monteCarloRowMean draw lstsq 1000 (fun a b : ℚ => a * b) 1 2 ![1, 2, 3] = .ok fun _ => 0 :=
  C32_monte_carlo_single draw lstsq 1000 _ (fun a b => mul_comm a b) (by norm_num) (by norm_num) _

/-- C32, Nyström with as many training points as kernel points: because the target is the row mean of the selected subset, the result is just the
mean of the kernel over the selected subset, whenever the subset's Gram matrix is invertible. -/
theorem C32_nystrom_subset_mean {draw : IndexDraw} (hdraw : IndexDrawContract draw) {lstsq : RectLstsq K} (hl : RectLstsqContract lstsq) (big : K)
    (k : X → X → K) (hk : ∀ a b, k a b = k b a) {n m : ℕ} [NeZero n] (hm : 0 < m) (hmn : m ≤ n) (x : Fin n → X)
    (hgram : ∀ S : Fin m → Fin n, (∀ s, draw n m s = ((S s : ℕ) : ℤ)) → IndepColumns (fun s j => k (x (S s)) (x (S j)))) :
    ∃ S : Fin m → Fin n, Function.Injective S ∧ (∀ s, draw n m s = ((S s : ℕ) : ℤ)) ∧ nystromRowMean draw lstsq big k m m x = .ok (fun i => (∑ j, k (x i) (x (S j))) / m) := by
  obtain ⟨S, hSi, hS⟩ := hdraw n m hmn
  refine ⟨S, hSi, hS, ?_⟩
  unfold nystromRowMean randomLeastSquares randomIndices gramianRowMean
  simp only [gt_iff_lt, not_lt.2 hmn, if_false, hS, gatherIdx_coe]
  rw [target_mean big k hk hm hm]
  have e := lstsq_unique hl (fun s j => k (x (S s)) (x (S j))) (fun s => (∑ a, k (x (S a)) (x (S s))) / (m : K)) (hgram S hS) (fun _ => 1 / (m : K))
    (fun s => by
      rw [Finset.sum_div]
      exact Finset.sum_congr rfl fun a _ => by rw [hk (x (S s)) (x (S a))]; ring)
  refine congrArg Except.ok (funext fun i => ?_)
  rw [asVec_ofFn, e, Finset.sum_div]
  exact Finset.sum_congr rfl fun j _ => by ring

/-- C32: with all points selected and an invertible Gram matrix the Nyström row mean is exact. -/
theorem C32_nystrom_full {draw : IndexDraw} (hdraw : IndexDrawContract draw) {lstsq : RectLstsq K} (hl : RectLstsqContract lstsq) (big : K)
    (k : X → X → K) (hk : ∀ a b, k a b = k b a) {n : ℕ} [NeZero n] (x : Fin n → X) (hgram : IndepColumns (fun i j => k (x i) (x j))) :
    nystromRowMean draw lstsq big k n n x = .ok (rowMeans k x) := by
  obtain ⟨S0, hS0i, hS0⟩ := hdraw n n le_rfl
  obtain ⟨S, hSi, -, h⟩ := C32_nystrom_subset_mean hdraw hl big k hk (NeZero.pos n) le_rfl x (fun S hS => by
    have hSS : S = S0 := by
      funext s
      have := (hS s).symm.trans (hS0 s)
      exact Fin.ext (by exact_mod_cast this)
    subst hSS
    have hb : Function.Bijective S := Finite.injective_iff_bijective.1 hS0i
    intro z hz j
    have e : ∀ i, ∑ j, k (x i) (x j) * (∑ j', if S j' = j then z j' else 0) = 0 := by
      intro i
      obtain ⟨s, rfl⟩ := hb.2 i
      refine Eq.trans ?_ (hz s)
      simp only [Finset.mul_sum]
      rw [Finset.sum_comm]
      refine Finset.sum_congr rfl fun j' _ => ?_
      simp
    have := hgram _ e (S j)
    rw [Finset.sum_eq_single j] at this
    · simpa using this
    · intro b _ hbj
      rw [if_neg (fun h => hbj (hS0i h))]
    · intro hk; exact absurd (Finset.mem_univ _) hk)
  rw [h]
  refine congrArg Except.ok (funext fun i => ?_)
  have hb : Function.Bijective S := Finite.injective_iff_bijective.1 hSi
  have : ∑ j, k (x i) (x (S j)) = ∑ a, k (x i) (x a) := hb.sum_comp (fun a => k (x i) (x a))
  rw [this, rowMeans]
  congr 1
  exact Finset.sum_congr rfl fun a _ => hk _ _

/-- C32, ANNchor: exact whenever the row means are a combination of the anchor features and these are independent on the training points. -/
theorem C32_annchor_exact {draw : IndexDraw} (hdraw : IndexDrawContract draw) {lstsq : RectLstsq K} (hl : RectLstsqContract lstsq) (big : K)
    (k : X → X → K) (hk : ∀ a b, k a b = k b a) {n f t : ℕ} [NeZero n] [NeZero f] (ht : 0 < t) (htn : t ≤ n) (x : Fin n → X)
    (a : Fin f → K) (ha : ∀ i, ∑ j, annchorFeatures k f x i j * a j = rowMeans k x i)
    (hind : ∀ S : Fin t → Fin n, (∀ s, draw n t s = ((S s : ℕ) : ℤ)) → IndepColumns (fun s => annchorFeatures k f x (S s))) :
    annchorRowMean draw lstsq big k f t x = .ok (rowMeans k x) :=
  rls_exact hdraw hl big k hk ht htn x (annchorFeatures k f x) a ha hind

/-! ### The choice of anchors -/

theorem rowMax_le {f : ℕ} [NeZero f] {row : Fin f → K} {c : K} : rowMax row ≤ c ↔ ∀ j, row j ≤ c := by
  unfold rowMax
  exact ⟨fun h j => (Finset.le_sup' row (Finset.mem_univ j)).trans h, fun h => Finset.sup'_le _ _ fun j _ => h j⟩

theorem le_rowMax {f : ℕ} [NeZero f] (row : Fin f → K) (j : Fin f) : row j ≤ rowMax row :=
  Finset.le_sup' row (Finset.mem_univ j)

theorem exists_rowMax {f : ℕ} [NeZero f] (row : Fin f → K) : ∃ j, rowMax row = row j := by
  obtain ⟨j, -, hj⟩ := Finset.exists_mem_eq_sup' (⟨0, Finset.mem_univ _⟩ : (Finset.univ : Finset (Fin f)).Nonempty) row
  exact ⟨j, hj⟩

/-- The largest similarity of a point to the first `s` anchors, but at least zero. -/
def Spec.IsMaxSim (k : X → X → K) {n f : ℕ} (x : Fin n → X) (anchor : Fin f → Fin n) (s : Fin f) (i : Fin n) (c : K) : Prop :=
  0 ≤ c ∧ (∀ j < s, k (x i) (x (anchor j)) ≤ c) ∧ (c = 0 ∨ ∃ j < s, c = k (x i) (x (anchor j)))

/-- C32: the ANNchor features are the kernel columns of anchors, the first of which is row zero, and each later one is a point (the first) for which the
largest similarity to the previous anchors, clipped below at zero, is smallest. -/
theorem C32_annchor_anchors (k : X → X → K) {n : ℕ} (f : ℕ) [NeZero n] [NeZero f] (x : Fin n → X) :
    ∃ anchor : Fin f → Fin n, anchor 0 = 0 ∧ (∀ i j, annchorFeatures k f x i j = k (x i) (x (anchor j))) ∧
      ∀ s : Fin f, s ≠ 0 → ∀ i c c', IsMaxSim k x anchor s (anchor s) c → IsMaxSim k x anchor s i c' → c ≤ c' ∧ (i < anchor s → c < c') := by
  have hf := NeZero.pos f
  have key := forLoop_inv (P := fun (t : ℕ) (feats : Fin n → Fin f → K) => ∃ anchor : Fin f → Fin n, anchor 0 = 0 ∧
      (∀ i j, feats i j = if (j : ℕ) ≤ t then k (x i) (x (anchor j)) else 0) ∧
      ∀ s : Fin f, s ≠ 0 → (s : ℕ) ≤ t → ∀ i c c', IsMaxSim k x anchor s (anchor s) c → IsMaxSim k x anchor s i c' → c ≤ c' ∧ (i < anchor s → c < c'))
    (f - 1) (fun idx feats => annchorBody k x ⟨(idx : ℕ) + 1, by have := idx.2; omega⟩ feats)
    (fun i => Function.update (fun _ => 0) 0 (k (x i) (x 0))) ?_ ?_
  · obtain ⟨anchor, h0, h1, h2⟩ := key
    refine ⟨anchor, h0, fun i j => ?_, fun s hs => h2 s hs (by have := s.2; omega)⟩
    have := h1 i j
    rw [if_pos (by have := j.2; omega)] at this
    exact this
  · refine ⟨fun _ => 0, rfl, fun i j => ?_, fun s hs hs0 => ?_⟩
    · by_cases hj : j = 0
      · subst hj
        simp
      · rw [Function.update_of_ne hj, if_neg]
        intro h
        exact hj (Fin.ext (by simpa using h))
    · exact absurd (Fin.ext (by simpa using hs0)) hs
  · intro t feats h
    obtain ⟨anchor, h0, h1, h2⟩ := h
    have ht := t.2
    set p := argminFirst (fun i => rowMax (feats i)) with hp
    set idx : Fin f := ⟨(t : ℕ) + 1, by omega⟩ with hidx
    have hspec := argminFirst_spec (fun i => rowMax (feats i))
    have hupd : ∀ j : Fin f, (j : ℕ) ≤ t → Function.update anchor idx p j = anchor j := by
      intro j hj
      rw [Function.update_of_ne]
      intro hh
      rw [hh, hidx] at hj
      simp at hj
    have hmax : ∀ i c, IsMaxSim k x (Function.update anchor idx p) idx i c → c = rowMax (feats i) := by
      intro i c ⟨hc0, hc1, hc2⟩
      apply le_antisymm
      · rcases hc2 with hc | ⟨j, hj, hc⟩
        · have := le_rowMax (feats i) idx
          rw [h1 i idx, if_neg (by simp [hidx])] at this
          rw [hc]; exact this
        · have hj' : (j : ℕ) ≤ t := by have : (j : ℕ) < t + 1 := hj; omega
          have := le_rowMax (feats i) j
          rw [h1 i j, if_pos hj'] at this
          rw [hc, hupd j hj']; exact this
      · rw [rowMax_le]
        intro j
        rw [h1 i j]
        split_ifs with hj
        · have := hc1 j (show (j : ℕ) < t + 1 by omega)
          rw [hupd j hj] at this
          exact this
        · exact hc0
    refine ⟨Function.update anchor idx p, ?_, fun i j => ?_, fun s hs hst => ?_⟩
    · rw [Function.update_of_ne, h0]
      intro hh
      have := congrArg Fin.val hh
      simp [hidx] at this
    · unfold annchorBody
      by_cases hj : j = idx
      · subst hj
        rw [Function.update_self, if_pos (by simp [hidx]), Function.update_self]
      · rw [Function.update_of_ne hj, h1 i j, Function.update_of_ne hj]
        have hne : (j : ℕ) ≠ t + 1 := fun hh => hj (Fin.ext hh)
        by_cases hjt : (j : ℕ) ≤ t
        · rw [if_pos hjt, if_pos (by omega)]
        · rw [if_neg hjt, if_neg (by omega)]
    · by_cases hs' : s = idx
      · subst hs'
        intro i c c' hc hc'
        have e1 := hmax _ _ hc
        have e2 := hmax _ _ hc'
        rw [Function.update_self] at e1
        rw [e1, e2, Function.update_self]
        exact ⟨(hspec i).1, fun hi => (hspec i).2 hi⟩
      · have hst' : (s : ℕ) ≤ t := by
          have : (s : ℕ) ≠ t + 1 := fun hh => hs' (Fin.ext hh)
          omega
        intro i c c' hc hc'
        have tr : ∀ i c, IsMaxSim k x (Function.update anchor idx p) s i c → IsMaxSim k x anchor s i c := by
          intro i c ⟨a, b, d⟩
          have hj : ∀ j < s, Function.update anchor idx p j = anchor j := fun j hj => hupd j (by have : (j : ℕ) < s := hj; omega)
          refine ⟨a, fun j hjs => by rw [← hj j hjs]; exact b j hjs, d.imp id ?_⟩
          rintro ⟨j, hjs, hc⟩
          exact ⟨j, hjs, by rw [← hj j hjs]; exact hc⟩
        rw [hupd s hst'] at hc ⊢
        exact h2 s hs hst' i c c' (tr _ _ hc) (tr _ _ hc')

end Coreax
