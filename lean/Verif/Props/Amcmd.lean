import Verif.Props.Metrics
import Verif.Lemmas.Kernel
import Verif.Lemmas.PSD
import Mathlib.LinearAlgebra.Matrix.NonsingularInverse
import Mathlib.LinearAlgebra.Matrix.PosDef

/-!
# C34: average maximum conditional mean discrepancy
-/

set_option linter.unusedSectionVars false

namespace Coreax

open Spec
open scoped RealInnerProductSpace

universe u
variable {X : Type*} {Y : Type u}

/-- Contract of `jnp.linalg.solve` in exact arithmetic: it solves every invertible system. -/
def SolveContract {K : Type*} [Field K] (solve : LinSolve K) : Prop :=
  ∀ {n q : ℕ} (A : Matrix (Fin n) (Fin n) K) (B : Matrix (Fin n) (Fin q) K), IsUnit A → A * solve A B = B

theorem isUnit_mul_cancel {n q : ℕ} {A : Matrix (Fin n) (Fin n) ℝ} (hA : IsUnit A) {B C : Matrix (Fin n) (Fin q) ℝ}
    (h : A * B = A * C) : B = C := by
  have hd := (Matrix.isUnit_iff_isUnit_det A).1 hA
  have := congrArg (fun M => A⁻¹ * M) h
  simpa [← Matrix.mul_assoc, Matrix.nonsing_inv_mul A hd] using this

/-- The regularised Gram matrix `K + λ I`. -/
noncomputable def Spec.regGram (k : X → X → ℝ) (reg : ℝ) {n : ℕ} (x : Fin n → X) : Matrix (Fin n) (Fin n) ℝ :=
  Matrix.of fun i j => k (x i) (x j) + if i = j then reg else 0

theorem regGram_eq (k : X → X → ℝ) (reg : ℝ) {n : ℕ} (x : Fin n → X) :
    gram k x x + (1 : Matrix (Fin n) (Fin n) ℝ).map (· * reg) = regGram k reg x := by
  ext i j
  simp [gram, regGram, Matrix.one_apply, ite_mul]

/-- For a positive semi-definite feature kernel and a positive regularisation the system is always solvable. -/
theorem C34_well_posed (k : X → X → ℝ) (hk : IsPSD k) (reg : ℝ) (hreg : 0 < reg) {n : ℕ} (x : Fin n → X) :
    IsUnit (regGram k reg x) := by
  have h1 : (Matrix.of fun i j => k (x i) (x j) : Matrix (Fin n) (Fin n) ℝ).PosSemidef := hk.posSemidef x
  have h2 : (reg • (1 : Matrix (Fin n) (Fin n) ℝ)).PosDef := Matrix.PosDef.one.smul hreg
  have : regGram k reg x = (Matrix.of fun i j => k (x i) (x j)) + reg • (1 : Matrix (Fin n) (Fin n) ℝ) := by
    ext i j
    simp [regGram, Matrix.one_apply]
  rw [this]
  exact (Matrix.PosDef.posSemidef_add h1 h2).isUnit

/-- The kernel `a b + 1` with regularisation 1/10, even on repeated points. -/
example : IsUnit (regGram (fun a b : ℝ => a * b + 1) (1 / 10) ![0, 1, 1]) :=
  C34_well_posed _ ((isPSD_rankOne (fun x : ℝ => x)).add (isPSD_const zero_le_one)) (1 / 10) (by norm_num) _

/-- Squared distance of two weighted sums of features. -/
theorem amcmdTerm_norm {H : Type*} [NormedAddCommGroup H] [InnerProductSpace ℝ H] (ψ : Y → H) {r : Y → Y → ℝ}
    (hr : ∀ a b, r a b = ⟪ψ a, ψ b⟫) {n m q : ℕ} (y1 : Fin n → Y) (y2 : Fin m → Y) (a : Matrix (Fin n) (Fin q) ℝ)
    (b : Matrix (Fin m) (Fin q) ℝ) :
    amcmdTerm a (gram r y1 y1) a + amcmdTerm b (gram r y2 y2) b - 2 * amcmdTerm a (gram r y1 y2) b
      = ∑ j, ‖∑ i, a i j • ψ (y1 i) - ∑ i, b i j • ψ (y2 i)‖ ^ 2 := by
  have key : ∀ {n m : ℕ} (y1 : Fin n → Y) (y2 : Fin m → Y) (a : Matrix (Fin n) (Fin q) ℝ) (b : Matrix (Fin m) (Fin q) ℝ),
      amcmdTerm a (gram r y1 y2) b = ∑ j, ⟪∑ i, a i j • ψ (y1 i), ∑ i, b i j • ψ (y2 i)⟫ := by
    intro n m y1 y2 a b
    refine Finset.sum_congr rfl (fun j _ => ?_)
    simp only [Matrix.mul_apply, Matrix.transpose_apply, gram, Matrix.of_apply, sum_inner, inner_sum, inner_smul_left,
      inner_smul_right, RCLike.conj_to_real, hr, Finset.sum_mul, Finset.mul_sum]
    refine Finset.sum_congr rfl (fun i _ => Finset.sum_congr rfl fun l _ => by ring)
  rw [key, key, key, ← Finset.sum_add_distrib, Finset.mul_sum, ← Finset.sum_sub_distrib]
  refine Finset.sum_congr rfl (fun j _ => ?_)
  rw [norm_sub_sq_real, real_inner_self_eq_norm_sq, real_inner_self_eq_norm_sq]
  ring

/-- For a positive semi-definite response kernel AMCMD is the root mean square, over the weighting points, of the RKHS
distance of the two estimated conditional mean embeddings; clipping at zero never acts.  `α j`, `β j` are the
embedding weights at weighting point `j`: the solutions of the two regularised systems. -/
theorem C34_definition (solve : LinSolve ℝ) (hsolve : SolveContract solve) (k : X → X → ℝ) (r : Y → Y → ℝ) (reg : ℝ)
    (hreg : 0 ≤ reg) {n m q : ℕ} (hq : 0 < q) (d1 : SupData n X Y ℝ) (d2 : SupData m X Y ℝ) (d3 : Data q X ℝ)
    (h1 : IsUnit (regGram k reg d1.data)) (h2 : IsUnit (regGram k reg d2.data)) (α : Fin q → Fin n → ℝ)
    (β : Fin q → Fin m → ℝ)
    (hα : ∀ j, (regGram k reg d1.data).mulVec (α j) = fun i => k (d1.data i) (d3.data j))
    (hβ : ∀ j, (regGram k reg d2.data).mulVec (β j) = fun i => k (d2.data i) (d3.data j))
    {H : Type*} [NormedAddCommGroup H] [InnerProductSpace ℝ H] (ψ : Y → H) (hr : ∀ a b, r a b = ⟪ψ a, ψ b⟫) :
    amcmdCompute solve k r reg d1 d2 (some d3) = .ok (Real.sqrt
      ((∑ j, ‖∑ i, α j i • ψ (d1.supervision i) - ∑ i, β j i • ψ (d2.supervision i)‖ ^ 2) / q)) := by
  have uniq : ∀ {n : ℕ} (x : Fin n → X) (γ : Fin q → Fin n → ℝ), IsUnit (regGram k reg x) →
      (∀ j, (regGram k reg x).mulVec (γ j) = fun i => k (x i) (d3.data j)) →
      cmeWeights solve k reg x d3.data = Matrix.of fun i j => γ j i := by
    intro n x γ hu hγ
    have e1 := hsolve (regGram k reg x) (gram k x d3.data) hu
    have e2 : regGram k reg x * Matrix.of (fun i j => γ j i) = gram k x d3.data := by
      ext i j
      have := congrFun (hγ j) i
      simpa [Matrix.mul_apply, Matrix.mulVec, dotProduct, gram] using this
    rw [cmeWeights, regGram_eq]
    exact isUnit_mul_cancel hu (e1.trans e2.symm)
  have : ¬ reg < 0 := not_lt.2 hreg
  simp only [amcmdCompute, amcmdSquared, this, if_false, amcmdSquaredAt, hq.ne', uniq d1.data α h1 hα,
    uniq d2.data β h2 hβ, amcmdTerm_norm ψ hr, clipSqrt, Matrix.of_apply]
  have hq' : (0 : ℝ) < q := by positivity
  rw [max_eq_right (by positivity), one_div, div_eq_inv_mul]

/-- A negative regularisation parameter is rejected, and only that (an empty weighting set divides by zero). -/
theorem C34_errors (solve : LinSolve ℝ) (k : X → X → ℝ) (r : Y → Y → ℝ) (reg : ℝ) {n m q : ℕ}
    (d1 : SupData n X Y ℝ) (d2 : SupData m X Y ℝ) (d3 : Data q X ℝ) :
    (reg < 0 ↔ amcmdCompute solve k r reg d1 d2 (some d3) = .error .valueError) ∧
    (0 ≤ reg → q = 0 → amcmdCompute solve k r reg d1 d2 (some d3) = .error .zeroDivisionError) ∧
    (0 ≤ reg → 0 < q → ∃ v, amcmdCompute solve k r reg d1 d2 (some d3) = .ok v ∧ 0 ≤ v) := by
  by_cases hreg : reg < 0
  · refine ⟨⟨fun _ => by simp [amcmdCompute, amcmdSquared, hreg, clipSqrt], fun _ => hreg⟩, fun h => absurd hreg (not_lt.2 h),
      fun h => absurd hreg (not_lt.2 h)⟩
  · by_cases hq : q = 0
    · simp [amcmdCompute, amcmdSquared, hreg, clipSqrt, amcmdSquaredAt, hq]
    · simp only [amcmdCompute, amcmdSquared, hreg, amcmdSquaredAt, hq, if_false, clipSqrt, false_iff]
      refine ⟨by simp, fun _ h => h.elim, fun _ _ => ⟨_, rfl, Real.sqrt_nonneg _⟩⟩

/-- AMCMD between a dataset and itself is zero, whatever the solver, kernels and weighting points. -/
theorem C34_self (solve : LinSolve ℝ) (k : X → X → ℝ) (r : Y → Y → ℝ) (reg : ℝ) (hreg : 0 ≤ reg) {n q : ℕ} (hn : 0 < n) (hq : 0 < q)
    (d1 : SupData n X Y ℝ) (d3 : Data q X ℝ) :
    amcmdCompute solve k r reg d1 d1 (some d3) = .ok 0 ∧
    amcmdCompute (q := q) solve k r reg d1 d1 none = .ok 0 := by
  have h0 : ∀ t : ℝ, t + t - 2 * t = 0 := fun t => by ring
  constructor
  · simp [amcmdCompute, amcmdSquared, not_lt.2 hreg, amcmdSquaredAt, hq.ne', clipSqrt, h0]
  · simp [amcmdCompute, amcmdSquared, not_lt.2 hreg, amcmdSquaredAt, hn.ne', clipSqrt, h0]

example (solve : LinSolve ℝ) : amcmdCompute (q := 2) solve (fun a b : ℝ => a * b + 1) (fun a b : ℝ => a * b) (1 / 10) ⟨⟨![0, 1], ![1, 1]⟩, ![1, 3]⟩ ⟨⟨![0, 1], ![1, 1]⟩, ![1, 3]⟩
    (some ⟨![2, 5], ![1, 1]⟩) = .ok 0 :=
  (C34_self solve _ _ (1 / 10) (by norm_num) (by norm_num) (by norm_num) _ _).1

/-- The default weighting is the reference features. -/
theorem C34_default_weighting (solve : LinSolve ℝ) (k : X → X → ℝ) (r : Y → Y → ℝ) (reg : ℝ) {n m : ℕ}
    (d1 : SupData n X Y ℝ) (d2 : SupData m X Y ℝ) (w : Fin n → ℝ) :
    amcmdCompute (q := n) solve k r reg d1 d2 none = amcmdCompute solve k r reg d1 d2 (some ⟨d1.data, w⟩) := rfl

theorem amcmdTerm_comm (r : Y → Y → ℝ) (hr : ∀ a b, r a b = r b a) {n m q : ℕ} (y1 : Fin n → Y) (y2 : Fin m → Y)
    (a : Matrix (Fin n) (Fin q) ℝ) (b : Matrix (Fin m) (Fin q) ℝ) :
    amcmdTerm a (gram r y1 y2) b = amcmdTerm b (gram r y2 y1) a := by
  refine Finset.sum_congr rfl (fun j _ => ?_)
  simp only [Matrix.mul_apply, Matrix.transpose_apply, gram, Matrix.of_apply, Finset.sum_mul]
  rw [Finset.sum_comm]
  refine Finset.sum_congr rfl (fun i _ => Finset.sum_congr rfl fun l _ => ?_)
  rw [hr]
  ring

/-- Swapping the datasets changes nothing when the weighting points are given explicitly (symmetric response kernel). -/
theorem C34_symm (solve : LinSolve ℝ) (k : X → X → ℝ) (r : Y → Y → ℝ) (hr : ∀ a b, r a b = r b a) (reg : ℝ) {n m q : ℕ}
    (d1 : SupData n X Y ℝ) (d2 : SupData m X Y ℝ) (d3 : Data q X ℝ) :
    amcmdCompute solve k r reg d1 d2 (some d3) = amcmdCompute solve k r reg d2 d1 (some d3) := by
  simp only [amcmdCompute, amcmdSquared, amcmdSquaredAt]
  rw [amcmdTerm_comm r hr d1.supervision d2.supervision]
  congr 4
  ring

example (solve : LinSolve ℝ) (d3 : Data 2 ℝ ℝ) : amcmdCompute solve (fun a b : ℝ => a * b + 1) (fun a b : ℝ => a * b) 0 ⟨⟨![0], ![1]⟩, ![1]⟩ ⟨⟨![1, 4], ![1, 1]⟩, ![1, 3]⟩ (some d3)
    = amcmdCompute solve (fun a b : ℝ => a * b + 1) (fun a b : ℝ => a * b) 0 ⟨⟨![1, 4], ![1, 1]⟩, ![1, 3]⟩ ⟨⟨![0], ![1]⟩, ![1]⟩ (some d3) :=
  C34_symm solve _ _ (fun a b => mul_comm a b) 0 _ _ d3

/-- Sample weights (of all three datasets) are ignored. -/
theorem C34_ignores_weights (solve : LinSolve ℝ) (k : X → X → ℝ) (r : Y → Y → ℝ) (reg : ℝ) {n m q : ℕ}
    (d1 : SupData n X Y ℝ) (d2 : SupData m X Y ℝ) (d3 : Data q X ℝ) (w1 : Fin n → ℝ) (w2 : Fin m → ℝ) (w3 : Fin q → ℝ) :
    amcmdCompute solve k r reg ⟨⟨d1.data, w1⟩, d1.supervision⟩ ⟨⟨d2.data, w2⟩, d2.supervision⟩ (some ⟨d3.data, w3⟩)
      = amcmdCompute solve k r reg d1 d2 (some d3) := rfl

/-- Reordering the comparison data (features and responses together) changes nothing. -/
theorem C34_reorder (solve : LinSolve ℝ) (hsolve : SolveContract solve) (k : X → X → ℝ) (r : Y → Y → ℝ) (reg : ℝ) {n m q : ℕ}
    (d1 : SupData n X Y ℝ) (d2 : SupData m X Y ℝ) (d3 : Data q X ℝ) (h2 : IsUnit (regGram k reg d2.data))
    (σ : Equiv.Perm (Fin m)) :
    amcmdCompute solve k r reg d1 ⟨⟨d2.data ∘ σ, d2.weights ∘ σ⟩, d2.supervision ∘ σ⟩ (some d3)
      = amcmdCompute solve k r reg d1 d2 (some d3) := by
  have hsub : regGram k reg (d2.data ∘ σ) = (regGram k reg d2.data).submatrix σ σ := by
    ext i j
    simp [regGram]
  have h2' : IsUnit (regGram k reg (d2.data ∘ σ)) := by
    rw [hsub]
    rw [Matrix.isUnit_iff_isUnit_det] at h2 ⊢
    rwa [Matrix.det_submatrix_equiv_self]
  have hw : cmeWeights solve k reg (d2.data ∘ σ) d3.data = (cmeWeights solve k reg d2.data d3.data).submatrix σ id := by
    have e1 := hsolve _ (gram k (d2.data ∘ σ) d3.data) h2'
    have e2 := hsolve _ (gram k d2.data d3.data) h2
    have e3 : regGram k reg (d2.data ∘ σ) * ((solve (regGram k reg d2.data) (gram k d2.data d3.data)).submatrix σ id)
        = gram k (d2.data ∘ σ) d3.data := by
      rw [hsub, Matrix.submatrix_mul_equiv, e2]
      rfl
    rw [cmeWeights, cmeWeights, regGram_eq, regGram_eq]
    exact isUnit_mul_cancel h2' (e1.trans e3.symm)
  have t : ∀ {n : ℕ} (y1 : Fin n → Y) (y2 : Fin m → Y) (a : Matrix (Fin n) (Fin q) ℝ) (b : Matrix (Fin m) (Fin q) ℝ),
      amcmdTerm a (gram r y1 (y2 ∘ σ)) (b.submatrix σ id) = amcmdTerm a (gram r y1 y2) b := by
    intro n y1 y2 a b
    refine Finset.sum_congr rfl (fun j _ => ?_)
    exact Equiv.sum_comp σ (fun i => (a.transpose * gram r y1 y2) j i * b.transpose j i)
  have t' : ∀ (y2 : Fin m → Y) (b : Matrix (Fin m) (Fin q) ℝ) {n : ℕ} (y1 : Fin n → Y) (a : Matrix (Fin n) (Fin q) ℝ),
      amcmdTerm (b.submatrix σ id) (gram r (y2 ∘ σ) y1) a = amcmdTerm b (gram r y2 y1) a := by
    intro y2 b n y1 a
    refine Finset.sum_congr rfl (fun j _ => Finset.sum_congr rfl fun i _ => ?_)
    congr 1
    simp only [Matrix.mul_apply, Matrix.transpose_apply, gram, Matrix.of_apply]
    exact Equiv.sum_comp σ (fun l => b l j * r (y2 l) (y1 i))
  simp only [amcmdCompute, amcmdSquared, amcmdSquaredAt, hw, t, t']

/-- With the default weighting AMCMD is *not* symmetric, and it can vanish on different datasets.  Witness: one pair
each, feature kernel `ab + 1`, linear response kernel, no regularisation. -/
theorem C34_default_not_symmetric (solve : LinSolve ℝ) (hsolve : SolveContract solve) :
    let k : ℝ → ℝ → ℝ := fun a b => a * b + 1
    let r : ℝ → ℝ → ℝ := fun a b => a * b
    let d1 : SupData 1 ℝ ℝ ℝ := ⟨⟨![0], ![1]⟩, ![1]⟩
    let d2 : SupData 1 ℝ ℝ ℝ := ⟨⟨![1], ![1]⟩, ![1]⟩
    amcmdCompute (q := 1) solve k r 0 d1 d2 none = .ok (1 / 2) ∧ amcmdCompute (q := 1) solve k r 0 d2 d1 none = .ok 0 := by
  intro k r d1 d2
  have u1 : regGram k 0 d1.data = Matrix.of ![![1]] := by
    ext i j; fin_cases i; fin_cases j; simp [regGram, k, d1]
  have u2 : regGram k 0 d2.data = Matrix.of ![![2]] := by
    ext i j; fin_cases i; fin_cases j; simp [regGram, k, d2]; norm_num
  have hu1 : IsUnit (regGram k 0 d1.data) := by
    rw [u1, Matrix.isUnit_iff_isUnit_det]; simp
  have hu2 : IsUnit (regGram k 0 d2.data) := by
    rw [u2, Matrix.isUnit_iff_isUnit_det]; simp
  have hr : ∀ a b : ℝ, r a b = ⟪a, b⟫ := fun a b => by simp [r, mul_comm]
  constructor
  · rw [C34_default_weighting solve k r 0 d1 d2 (fun _ => 1),
      C34_definition solve hsolve k r 0 le_rfl one_pos d1 d2 ⟨d1.data, _⟩ hu1 hu2 (fun _ _ => 1) (fun _ _ => 1 / 2)
        (fun j => by rw [u1]; ext i; fin_cases i; fin_cases j; simp [k, d1, Matrix.mulVec, dotProduct])
        (fun j => by rw [u2]; ext i; fin_cases i; fin_cases j; simp [k, d1, d2, Matrix.mulVec, dotProduct]) (fun y : ℝ => y) hr]
    have : Real.sqrt 4 = 2 := by rw [show (4 : ℝ) = 2 ^ 2 by norm_num]; exact Real.sqrt_sq (by norm_num)
    norm_num [d1, d2, this]
  · rw [C34_default_weighting solve k r 0 d2 d1 (fun _ => 1),
      C34_definition solve hsolve k r 0 le_rfl one_pos d2 d1 ⟨d2.data, _⟩ hu2 hu1 (fun _ _ => 1) (fun _ _ => 1)
        (fun j => by rw [u2]; ext i; fin_cases i; fin_cases j; simp [k, d2, Matrix.mulVec, dotProduct]; norm_num)
        (fun j => by rw [u1]; ext i; fin_cases i; fin_cases j; simp [k, d1, d2, Matrix.mulVec, dotProduct]) (fun y : ℝ => y) hr]
    norm_num [d1, d2]

/-- The contract of the linear solver is satisfiable. -/
example : SolveContract (K := ℝ) (fun A B => A⁻¹ * B) := by
  intro n q A B h
  rw [← Matrix.mul_assoc, Matrix.mul_nonsing_inv _ ((Matrix.isUnit_iff_isUnit_det A).1 h), Matrix.one_mul]

/-- The hypotheses of `C34_definition` and `C34_reorder` with that solver: two rows that are exchanged, regularised kernel matrix. -/
example (d1 : SupData 1 ℝ ℝ ℝ) (d3 : Data 2 ℝ ℝ) :
    amcmdCompute (fun A B => A⁻¹ * B) (fun a b : ℝ => a * b + 1) (fun a b : ℝ => a * b) (1 / 10) d1 ⟨⟨![0, 1] ∘ Equiv.swap 0 1, ![1, 1] ∘ Equiv.swap 0 1⟩, ![5, 7] ∘ Equiv.swap 0 1⟩ (some d3)
      = amcmdCompute (fun A B => A⁻¹ * B) (fun a b : ℝ => a * b + 1) (fun a b : ℝ => a * b) (1 / 10) d1 ⟨⟨![0, 1], ![1, 1]⟩, ![5, 7]⟩ (some d3) :=
  C34_reorder _ (fun A B h => by rw [← Matrix.mul_assoc, Matrix.mul_nonsing_inv _ ((Matrix.isUnit_iff_isUnit_det A).1 h), Matrix.one_mul]) _ _ (1 / 10) d1 ⟨⟨![0, 1], ![1, 1]⟩, ![5, 7]⟩ d3
    (C34_well_posed _ ((isPSD_rankOne (fun x : ℝ => x)).add (isPSD_const zero_le_one)) (1 / 10) (by norm_num) _) (Equiv.swap 0 1)

example : amcmdCompute (fun A B => A⁻¹ * B) (fun a b : ℝ => a * b + 1) (fun a b : ℝ => a * b) 0 ⟨⟨![0], ![1]⟩, ![1]⟩ ⟨⟨![0], ![1]⟩, ![3]⟩ (some ⟨![2, 5], ![1, 1]⟩) = .ok 2 := by
  have hg : regGram (fun a b : ℝ => a * b + 1) 0 (![0] : Fin 1 → ℝ) = 1 := by
    ext i j; fin_cases i; fin_cases j; simp [regGram]
  have hu : IsUnit (regGram (fun a b : ℝ => a * b + 1) 0 (![0] : Fin 1 → ℝ)) := by rw [hg]; exact isUnit_one
  rw [C34_definition _ (fun A B h => by rw [← Matrix.mul_assoc, Matrix.mul_nonsing_inv _ ((Matrix.isUnit_iff_isUnit_det A).1 h), Matrix.one_mul]) _ _ 0 le_rfl (by norm_num)
    ⟨⟨![0], ![1]⟩, ![1]⟩ ⟨⟨![0], ![1]⟩, ![3]⟩ ⟨![2, 5], ![1, 1]⟩ hu hu (fun _ _ => 1) (fun _ _ => 1) (fun j => by rw [hg, Matrix.one_mulVec]; ext i; fin_cases i; simp)
    (fun j => by rw [hg, Matrix.one_mulVec]; ext i; fin_cases i; simp) (fun y : ℝ => y) (fun a b => by simp [mul_comm])]
  have : Real.sqrt 4 = 2 := by rw [show (4 : ℝ) = 2 ^ 2 by norm_num]; exact Real.sqrt_sq (by norm_num)
  norm_num [this]

end Coreax
