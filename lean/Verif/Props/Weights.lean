import Verif.Model.Weights
import Verif.Spec.Weights
import Verif.Props.Metrics
import Verif.Props.Amcmd
import Verif.Lemmas.RPC

/-!
# Properties of the weights optimisers

C29 (simplex weights), C30 (sequential Bayesian quadrature weights).
-/

set_option linter.unusedSectionVars false

namespace Coreax

open Spec

section
variable {K : Type*} [Field K] [LinearOrder K] [IsStrictOrderedRing K] {m : ℕ}

/-! ### Clipping and normalising -/

/-- C29: whatever finite numbers the solver returns, if one of them is positive the weights are on the simplex; they are
proportional to the positive parts. -/
theorem C29_simplex (primal : Fin m → Ext K) (raw : Fin m → K) (h : ∀ i, primal i = .fin (raw i)) (hpos : ∃ i, 0 < raw i) :
    ∃ v : Fin m → K, (∀ i, clipNormalize primal i = .fin (v i)) ∧ OnSimplex v ∧
      (∀ i, v i = 0 ↔ raw i ≤ 0) ∧ ∀ i j, v i * max 0 (raw j) = v j * max 0 (raw i) := by
  obtain ⟨i0, hi0⟩ := hpos
  have hs : 0 < ∑ i, max 0 (raw i) :=
    Finset.sum_pos' (fun i _ => le_max_left _ _) ⟨i0, Finset.mem_univ _, lt_max_of_lt_right hi0⟩
  refine ⟨fun i => max 0 (raw i) / ∑ j, max 0 (raw j), ?_, ⟨fun i => div_nonneg (le_max_left _ _) hs.le, ?_⟩, ?_, ?_⟩
  · intro i
    unfold clipNormalize
    have e : (fun j => (primal j).max0) = fun j => Ext.fin (max 0 (raw j)) := by
      funext j; rw [h j]; rfl
    rw [e, Ext.sum_fin, h i]
    change Ext.div _ _ = _
    simp only [Ext.max0, Ext.div, if_neg hs.ne']
  · rw [← Finset.sum_div, div_self hs.ne']
  · intro i
    rw [div_eq_zero_iff, or_iff_left hs.ne']
    constructor
    · intro hh; exact hh ▸ le_max_right _ _
    · intro hh; exact max_eq_left hh
  · intro i j
    ring

example := C29_simplex (K := ℚ) ![.fin (-1), .fin 1, .fin 3] ![-1, 1, 3] (by decide +kernel) ⟨1, by decide +kernel⟩

/-- A simplex-feasible solver output is returned unchanged. -/
theorem C29_feasible_unchanged (primal : Fin m → Ext K) (v : Fin m → K) (h : ∀ i, primal i = .fin (v i)) (hv : OnSimplex v) (i : Fin m) :
    clipNormalize primal i = .fin (v i) := by
  unfold clipNormalize
  have e : (fun j => (primal j).max0) = fun j => Ext.fin (v j) := by
    funext j; rw [h j]; exact congrArg Ext.fin (max_eq_right (hv.1 j))
  have e1 : (primal i).max0 = Ext.fin (v i) := congrFun e i
  rw [e, Ext.sum_fin, hv.2, e1]
  change Ext.div _ _ = _
  simp [Ext.div]

example := C29_feasible_unchanged (K := ℚ) ![.fin 0, .fin (1 / 4), .fin (3 / 4)] ![0, 1 / 4, 3 / 4] (by decide +kernel) ⟨by decide +kernel, by decide +kernel⟩ 1

/-- If no entry is positive the weights are all NaN. -/
theorem C29_all_nonpositive_nan (primal : Fin m → Ext K) (raw : Fin m → K) (h : ∀ i, primal i = .fin (raw i)) (hpos : ∀ i, raw i ≤ 0)
    (i : Fin m) : clipNormalize primal i = .nan := by
  unfold clipNormalize
  have e : (fun j => (primal j).max0) = fun _ => Ext.fin 0 := by
    funext j; rw [h j]; exact congrArg Ext.fin (max_eq_left (hpos j))
  have e1 : (primal i).max0 = Ext.fin 0 := congrFun e i
  rw [e, Ext.sum_fin, Finset.sum_const_zero, e1]
  change Ext.div _ _ = _
  simp [Ext.div]

example := C29_all_nonpositive_nan (K := ℚ) ![.fin (-1), .fin 0, .fin (-3)] ![-1, 0, -3] (by decide +kernel) (by decide +kernel) 1

/-- One NaN in the solver output makes every weight NaN. -/
theorem C29_nan (primal : Fin m → Ext K) (j : Fin m) (h : primal j = .nan) (i : Fin m) : clipNormalize primal i = .nan := by
  unfold clipNormalize
  have hs : Ext.sum (fun j => (primal j).max0) = .nan := by
    unfold Ext.sum
    have key : ∀ (l : List (Ext K)) (a : Ext K), (a = .nan ∨ Ext.nan ∈ l) → l.foldl (· + ·) a = .nan := by
      intro l
      induction l with
      | nil => intro a ha; simpa using ha
      | cons b l ih =>
        intro a ha
        rw [List.foldl_cons]
        apply ih
        rcases ha with rfl | hb
        · left; exact Ext.nan_add b
        · rcases List.mem_cons.1 hb with hb | hb
          · left; rw [← hb]; exact Ext.add_nan a
          · right; exact hb
    refine key _ _ (Or.inr ?_)
    rw [List.mem_ofFn]
    exact ⟨j, by simp only [h]; rfl⟩
  rw [hs]
  cases (primal i).max0 <;> rfl

example : (clipNormalize (K := ℚ) ![.fin (-1), .fin 1, .fin 3]) = ![.fin 0, .fin (1/4), .fin (3/4)] := by decide +kernel

end

/-! ### The linear and quadratic systems -/

section
variable {K : Type*} [Field K] [LinearOrder K] [IsStrictOrderedRing K] {X Y : Type*} [Zero X]

/-- The optimisers accept exactly unsupervised data (with a valid block size and at least one point on each side) and
then see only the points: the mean of the kernel over the dataset, each point counted equally, and the Gram matrix of
the coreset plus `eps` on the diagonal. -/
theorem C29_system (big : K) (k : X → X → K) {n m : ℕ} (dataset : DSet n X Y K) (coreset : DSet m X Y K) (eps : K)
    (bs : PyTree (Option ℤ)) :
    (∀ hn : 0 < n, 0 < m → ValidBlock bs → dataset.sup = none → coreset.sup = none →
      prepareKernelSystem big k dataset coreset eps bs = .ok (fun j => (∑ i, k (coreset.data j) (dataset.data i)) / n,
        fun i j => k (coreset.data i) (coreset.data j) + if i = j then eps else 0)) ∧
    (dataset.sup ≠ none ∨ coreset.sup ≠ none → prepareKernelSystem big k dataset coreset eps bs = .error .valueError) := by
  constructor
  · intro hn hm hbs h1 h2
    have hsum : ∑ j, (Data.ofArray (K := K) dataset.data).weights j ≠ 0 := by
      simp only [Data.ofArray, Finset.sum_const, Finset.card_univ, Fintype.card_fin, nsmul_eq_mul, mul_one]
      exact_mod_cast hn.ne'
    unfold prepareKernelSystem
    rw [h1, h2]
    simp only [Option.isNone_none, Bool.and_self, if_true]
    rw [C05_mean_axis0_swaps big k hn hm (Data.ofArray dataset.data) (Data.ofArray coreset.data) hsum bs hbs]
    refine congrArg Except.ok (Prod.ext ?_ ?_)
    · funext j
      simp [asVec, Data.ofArray, avg]
    · funext i j
      simp
  · intro h
    unfold prepareKernelSystem
    rw [if_neg]
    simp only [Bool.and_eq_true, Option.isNone_iff_eq_none, not_and]
    intro h1 h2
    rcases h with h | h
    · exact h h1
    · exact h h2

/-- Both optimisers depend on the points only: the weights of dataset and coreset are ignored. -/
theorem C29_ignores_weights (qp : SimplexQP K) (solve : LinSolve K) (big : K) (k : X → X → K) {n m : ℕ} (dataset dataset' : DSet n X Y K)
    (coreset coreset' : DSet m X Y K) (eps : K) (bs : PyTree (Option ℤ)) (h1 : dataset.data = dataset'.data) (h2 : coreset.data = coreset'.data)
    (h3 : dataset.sup = dataset'.sup) (h4 : coreset.sup = coreset'.sup) :
    mmdWeightsSolve qp big k dataset coreset eps bs = mmdWeightsSolve qp big k dataset' coreset' eps bs ∧
    sbqSolve solve big k dataset coreset eps bs = sbqSolve solve big k dataset' coreset' eps bs := by
  have : prepareKernelSystem big k dataset coreset eps bs = prepareKernelSystem big k dataset' coreset' eps bs := by
    unfold prepareKernelSystem
    rw [h1, h2, h3, h4]
  unfold mmdWeightsSolve sbqSolve
  rw [this]
  exact ⟨rfl, rfl⟩

/-- Expansion of the regularised distance about a solution of the linear system. -/
theorem distSq_expand (k : X → X → K) (hk : ∀ a b, k a b = k b a) (eps : K) {n m : ℕ} (x : Fin n → X) (w : Fin n → K) (y : Fin m → X)
    (v u : Fin m → K) (hv : ∀ i, ∑ j, k (y i) (y j) * v j + eps * v i = ∑ a, w a * k (x a) (y i)) :
    distSq k x w y u + eps * ∑ i, u i ^ 2 = distSq k x w y v + eps * ∑ i, v i ^ 2 +
      (∑ i, ∑ j, (u i - v i) * (u j - v j) * k (y i) (y j) + eps * ∑ i, (u i - v i) ^ 2) := by
  have cross : ∀ u : Fin m → K, ∑ a, ∑ j, w a * u j * k (x a) (y j) = ∑ i, u i * (∑ j, k (y i) (y j) * v j + eps * v i) := by
    intro u
    rw [Finset.sum_comm]
    refine Finset.sum_congr rfl fun i _ => ?_
    rw [hv i, Finset.mul_sum]
    exact Finset.sum_congr rfl fun a _ => by ring
  have bil : ∀ u : Fin m → K, ∑ i, u i * (∑ j, k (y i) (y j) * v j + eps * v i)
      = ∑ i, ∑ j, u i * v j * k (y i) (y j) + eps * ∑ i, u i * v i := by
    intro u
    rw [Finset.mul_sum, ← Finset.sum_add_distrib]
    refine Finset.sum_congr rfl fun i _ => ?_
    rw [mul_add, Finset.mul_sum]
    congr 1
    · exact Finset.sum_congr rfl fun j _ => by ring
    · ring
  have quad : ∑ i, ∑ j, (u i - v i) * (u j - v j) * k (y i) (y j)
      = ∑ i, ∑ j, u i * u j * k (y i) (y j) - 2 * ∑ i, ∑ j, u i * v j * k (y i) (y j) + ∑ i, ∑ j, v i * v j * k (y i) (y j) := by
    have sw : ∑ i, ∑ j, v i * u j * k (y i) (y j) = ∑ i, ∑ j, u i * v j * k (y i) (y j) := by
      rw [Finset.sum_comm]
      exact Finset.sum_congr rfl fun i _ => Finset.sum_congr rfl fun j _ => by rw [hk (y j) (y i)]; ring
    have : ∑ i, ∑ j, (u i - v i) * (u j - v j) * k (y i) (y j)
        = ∑ i, ∑ j, u i * u j * k (y i) (y j) - ∑ i, ∑ j, u i * v j * k (y i) (y j) - ∑ i, ∑ j, v i * u j * k (y i) (y j)
          + ∑ i, ∑ j, v i * v j * k (y i) (y j) := by
      simp only [← Finset.sum_sub_distrib, ← Finset.sum_add_distrib]
      exact Finset.sum_congr rfl fun i _ => Finset.sum_congr rfl fun j _ => by ring
    rw [this, sw]
    ring
  have sq : ∑ i, (u i - v i) ^ 2 = ∑ i, u i ^ 2 - 2 * ∑ i, u i * v i + ∑ i, v i ^ 2 := by
    rw [Finset.mul_sum, ← Finset.sum_sub_distrib, ← Finset.sum_add_distrib]
    exact Finset.sum_congr rfl fun i _ => by ring
  have vv : ∑ i, v i * v i = ∑ i, v i ^ 2 := Finset.sum_congr rfl fun i _ => by ring
  have c1 := (cross u).trans (bil u)
  have c2 := (cross v).trans (bil v)
  unfold distSq
  rw [c1, c2, quad, sq, vv]
  ring

/-- Sequential Bayesian quadrature: for a symmetric kernel and an invertible (regularised) Gram matrix the weights returned are the
unique stationary point; the regularised squared distance of any other weights exceeds theirs by the quadratic form of the difference. -/
theorem C30_pythagoras (solve : LinSolve K) (hsolve : SolveContract solve) (big : K) (k : X → X → K) (hk : ∀ a b, k a b = k b a) {n m : ℕ}
    (hn : 0 < n) (hm : 0 < m) (dataset : DSet n X Y K) (coreset : DSet m X Y K) (h1 : dataset.sup = none) (h2 : coreset.sup = none) (eps : K)
    (bs : PyTree (Option ℤ)) (hbs : ValidBlock bs)
    (hunit : IsUnit (Matrix.of fun i j => k (coreset.data i) (coreset.data j) + if i = j then eps else 0)) :
    ∃ v, sbqSolve solve big k dataset coreset eps bs = .ok v ∧ ∀ u : Fin m → K,
      distSq k dataset.data (fun _ => 1 / (n : K)) coreset.data u + eps * ∑ i, u i ^ 2
        = distSq k dataset.data (fun _ => 1 / (n : K)) coreset.data v + eps * ∑ i, v i ^ 2 +
          (∑ i, ∑ j, (u i - v i) * (u j - v j) * k (coreset.data i) (coreset.data j) + eps * ∑ i, (u i - v i) ^ 2) := by
  have hsys := (C29_system big k dataset coreset eps bs).1 hn hm hbs h1 h2
  refine ⟨fun i => solve (Matrix.of fun i j => k (coreset.data i) (coreset.data j) + if i = j then eps else 0)
      (Matrix.of fun j (_ : Fin 1) => (∑ i, k (coreset.data j) (dataset.data i)) / (n : K)) i 0, ?_, fun u => ?_⟩
  · unfold sbqSolve
    rw [hsys]
  · refine distSq_expand k hk eps dataset.data _ coreset.data _ u (fun i => ?_)
    have h := congrFun (congrFun (hsolve (Matrix.of fun i j => k (coreset.data i) (coreset.data j) + if i = j then eps else 0)
      (Matrix.of fun j (_ : Fin 1) => (∑ i, k (coreset.data j) (dataset.data i)) / (n : K)) hunit) i) 0
    rw [Matrix.mul_apply] at h
    simp only [Matrix.of_apply, add_mul, ite_mul, zero_mul, Finset.sum_add_distrib, Finset.sum_ite_eq, Finset.mem_univ, if_true] at h
    rw [h, Finset.sum_div]
    exact Finset.sum_congr rfl fun a _ => by rw [hk (coreset.data i) (dataset.data a)]; ring

/-- C30: for a strictly positive-definite (regularised) Gram matrix the SBQ weights are the unique minimiser of the regularised
squared RKHS distance to the unweighted mean of the dataset, over all weight vectors. -/
theorem C30_optimal (solve : LinSolve K) (hsolve : SolveContract solve) (big : K) (k : X → X → K) (hk : ∀ a b, k a b = k b a) {n m : ℕ}
    (hn : 0 < n) (hm : 0 < m) (dataset : DSet n X Y K) (coreset : DSet m X Y K) (h1 : dataset.sup = none) (h2 : coreset.sup = none) (eps : K)
    (bs : PyTree (Option ℤ)) (hbs : ValidBlock bs) (hpd : StrictPD k eps coreset.data) :
    ∃ v, sbqSolve solve big k dataset coreset eps bs = .ok v ∧ ∀ u : Fin m → K, u ≠ v →
      distSq k dataset.data (fun _ => 1 / (n : K)) coreset.data v + eps * ∑ i, v i ^ 2
        < distSq k dataset.data (fun _ => 1 / (n : K)) coreset.data u + eps * ∑ i, u i ^ 2 := by
  have hunit : IsUnit (Matrix.of fun i j => k (coreset.data i) (coreset.data j) + if i = j then eps else 0) := by
    rw [← Matrix.mulVec_injective_iff_isUnit]
    intro a b hab
    by_contra hne
    obtain ⟨i, hi⟩ := Function.ne_iff.1 hne
    have hpos := hpd (fun i => a i - b i) ⟨i, sub_ne_zero.2 hi⟩
    have hz : ∀ i, ∑ j, (k (coreset.data i) (coreset.data j) + if i = j then eps else 0) * (a j - b j) = 0 := by
      intro i
      have := congrFun hab i
      simp only [Matrix.mulVec, dotProduct, Matrix.of_apply] at this
      simp only [mul_sub, Finset.sum_sub_distrib, this, sub_self]
    have : ∑ i, ∑ j, (a i - b i) * (a j - b j) * k (coreset.data i) (coreset.data j) + eps * ∑ i, (a i - b i) ^ 2
        = ∑ i, (a i - b i) * ∑ j, (k (coreset.data i) (coreset.data j) + if i = j then eps else 0) * (a j - b j) := by
      rw [Finset.mul_sum, ← Finset.sum_add_distrib]
      refine Finset.sum_congr rfl fun i _ => ?_
      simp only [add_mul, ite_mul, zero_mul, Finset.sum_add_distrib, Finset.sum_ite_eq, Finset.mem_univ, if_true, mul_add, Finset.mul_sum]
      congr 1
      · exact Finset.sum_congr rfl fun j _ => by ring
      · ring
    rw [this] at hpos
    simp [hz] at hpos
  obtain ⟨v, h3, h4⟩ := C30_pythagoras solve hsolve big k hk hn hm dataset coreset h1 h2 eps bs hbs hunit
  refine ⟨v, h3, fun u hu => ?_⟩
  rw [h4 u]
  obtain ⟨i, hi⟩ := Function.ne_iff.1 hu
  have := hpd (fun i => u i - v i) ⟨i, sub_ne_zero.2 hi⟩
  linarith

/-! ### Simplex weights -/

/-- Contract of an exact QP solver on the simplex. -/
def QPContract (qp : SimplexQP K) : Prop :=
  ∀ {m : ℕ} (Q : Fin m → Fin m → K) (c : Fin m → K), 0 < m → (∀ v : Fin m → K, 0 ≤ ∑ i, ∑ j, v i * Q i j * v j) →
    ∃ v : Fin m → K, (∀ i, qp Q c i = .fin (v i)) ∧ OnSimplex v ∧ ∀ u, OnSimplex u → qpObjective Q c v ≤ qpObjective Q c u

theorem qpObjective_eq (k : X → X → K) (hk : ∀ a b, k a b = k b a) (eps : K) {n m : ℕ} (x : Fin n → X) (y : Fin m → X) (v : Fin m → K) :
    2 * qpObjective (fun i j => k (y i) (y j) + if i = j then eps else 0) (fun j => -((∑ i, k (y j) (x i)) / (n : K))) v
      = distSq k x (fun _ => 1 / (n : K)) y v + eps * ∑ i, v i ^ 2 -
        ∑ i : Fin n, ∑ j : Fin n, 1 / (n : K) * (1 / (n : K)) * k (x i) (x j) := by
  have e1 : ∑ i, ∑ j, v i * (k (y i) (y j) + if i = j then eps else 0) * v j
      = ∑ i, ∑ j, v i * v j * k (y i) (y j) + eps * ∑ i, v i ^ 2 := by
    rw [Finset.mul_sum, ← Finset.sum_add_distrib]
    refine Finset.sum_congr rfl fun i _ => ?_
    simp only [mul_add, add_mul, mul_ite, ite_mul, mul_zero, zero_mul, Finset.sum_add_distrib, Finset.sum_ite_eq, Finset.mem_univ, if_true]
    congr 1
    · exact Finset.sum_congr rfl fun j _ => by ring
    · ring
  have e2 : ∑ j, -((∑ i, k (y j) (x i)) / (n : K)) * v j = -∑ i, ∑ j, 1 / (n : K) * v j * k (x i) (y j) := by
    rw [Finset.sum_comm, ← Finset.sum_neg_distrib]
    refine Finset.sum_congr rfl fun j _ => ?_
    rw [Finset.sum_div, neg_mul, Finset.sum_mul]
    congr 1
    exact Finset.sum_congr rfl fun i _ => by rw [hk (y j) (x i)]; ring
  unfold qpObjective distSq
  rw [e1, e2]
  ring

/-- C29: with an exact QP solver the weights returned minimise, over the simplex, the (regularised) squared RKHS distance to the
unweighted mean of the dataset. -/
theorem C29_optimal (qp : SimplexQP K) (hqp : QPContract qp) (big : K) (k : X → X → K) (hk : ∀ a b, k a b = k b a) {n m : ℕ}
    (hn : 0 < n) (hm : 0 < m) (dataset : DSet n X Y K) (coreset : DSet m X Y K) (h1 : dataset.sup = none) (h2 : coreset.sup = none) (eps : K)
    (heps : 0 ≤ eps) (hpsd : ∀ v : Fin m → K, 0 ≤ ∑ i, ∑ j, v i * v j * k (coreset.data i) (coreset.data j))
    (bs : PyTree (Option ℤ)) (hbs : ValidBlock bs) :
    ∃ v : Fin m → K, mmdWeightsSolve qp big k dataset coreset eps bs = .ok (fun i => .fin (v i)) ∧ OnSimplex v ∧
      ∀ u, OnSimplex u → distSq k dataset.data (fun _ => 1 / (n : K)) coreset.data v + eps * ∑ i, v i ^ 2
        ≤ distSq k dataset.data (fun _ => 1 / (n : K)) coreset.data u + eps * ∑ i, u i ^ 2 := by
  have hsys := (C29_system big k dataset coreset eps bs).1 hn hm hbs h1 h2
  obtain ⟨v, h3, h4, h5⟩ := hqp (fun i j => k (coreset.data i) (coreset.data j) + if i = j then eps else 0)
    (fun j => -((∑ i, k (coreset.data j) (dataset.data i)) / (n : K))) hm (by
      intro v
      have : ∑ i, ∑ j, v i * (k (coreset.data i) (coreset.data j) + if i = j then eps else 0) * v j
          = ∑ i, ∑ j, v i * v j * k (coreset.data i) (coreset.data j) + eps * ∑ i, v i ^ 2 := by
        rw [Finset.mul_sum, ← Finset.sum_add_distrib]
        refine Finset.sum_congr rfl fun i _ => ?_
        simp only [mul_add, add_mul, mul_ite, ite_mul, mul_zero, zero_mul, Finset.sum_add_distrib, Finset.sum_ite_eq, Finset.mem_univ, if_true]
        congr 1
        · exact Finset.sum_congr rfl fun j _ => by ring
        · ring
      rw [this]
      exact add_nonneg (hpsd v) (mul_nonneg heps (Finset.sum_nonneg fun i _ => sq_nonneg _)))
  refine ⟨v, ?_, h4, fun u hu => ?_⟩
  · unfold mmdWeightsSolve
    rw [hsys]
    refine congrArg Except.ok (funext fun i => ?_)
    exact C29_feasible_unchanged _ v h3 h4 i
  · have := h5 u hu
    have e1 := qpObjective_eq k hk eps dataset.data coreset.data v
    have e2 := qpObjective_eq k hk eps dataset.data coreset.data u
    linarith

end

end Coreax
