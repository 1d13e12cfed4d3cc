import Verif.Spec.Kernel
import Mathlib.Analysis.InnerProductSpace.Reproducing
import Mathlib.Analysis.Matrix.Order

/-!
# Lemmas about positive semi-definite kernels
-/

set_option linter.unusedSectionVars false

namespace Coreax.Spec

open scoped RealInnerProductSpace

universe u
variable {X : Type u}

/-- Positive semi-definiteness over any finite index type. -/
theorem IsPSD.sum_nonneg {k : X → X → ℝ} (hk : IsPSD k) {ι : Type*} [Fintype ι] (x : ι → X) (c : ι → ℝ) :
    0 ≤ ∑ i, ∑ j, c i * c j * k (x i) (x j) := by
  let e := Fintype.equivFin ι
  have := hk.2 (Fintype.card ι) (fun i => x (e.symm i)) (fun i => c (e.symm i))
  rw [← Equiv.sum_comp e.symm]
  simp only [← Equiv.sum_comp e.symm (fun j => c _ * c j * k _ (x j))]
  exact this

/-- Moore's theorem: a positive semi-definite kernel is the inner product of features in a Hilbert space. -/
theorem IsPSD.exists_feature {k : X → X → ℝ} (hk : IsPSD k) :
    ∃ (H : Type u) (_ : NormedAddCommGroup H) (_ : InnerProductSpace ℝ H) (φ : X → H),
      ∀ a b, k a b = ⟪φ a, φ b⟫ := by
  let K : Matrix X X (ℝ →L[ℝ] ℝ) := Matrix.of fun x y => k x y • ContinuousLinearMap.id ℝ ℝ
  have hherm : K.IsHermitian := by
    ext x y : 2
    have : star (ContinuousLinearMap.id ℝ ℝ) = ContinuousLinearMap.id ℝ ℝ := star_one (ℝ →L[ℝ] ℝ)
    simp [K, Matrix.conjTranspose_apply, hk.1 x y, this]
  have hpsd : K.PosSemidef := by
    have ht := (RKHS.posSemidef_tfae (K := K)).out 0 2
    refine ht.2 ⟨hherm, fun v => ?_⟩
    have := hk.sum_nonneg (fun i : v.support => (i : X)) (fun i => v i)
    simp only [Finsupp.sum]
    rw [← Finset.sum_coe_sort]
    simp only [← Finset.sum_coe_sort v.support (fun x' => ⟪(K x' _) _, v x'⟫)]
    simp only [K, Matrix.of_apply, RCLike.re_to_real]
    convert this using 5 with i _ j _
    simp [hk.1 j i]
    ring
  have : Fact K.PosSemidef := ⟨hpsd⟩
  refine ⟨RKHS.OfKernel K, inferInstance, inferInstance, fun x => RKHS.kerFun (RKHS.OfKernel K) x 1, fun a b => ?_⟩
  have h := RKHS.kernel_inner (RKHS.OfKernel K) b a 1 1
  rw [RKHS.OfKernel.kernel_ofKernel] at h
  show k a b = ⟪RKHS.kerFun (RKHS.OfKernel K) a 1, RKHS.kerFun (RKHS.OfKernel K) b 1⟫
  rw [← h]
  simp [K, hk.1 a b]

theorem isPSD_of_feature {H : Type*} [NormedAddCommGroup H] [InnerProductSpace ℝ H] (φ : X → H) :
    IsPSD (fun a b => ⟪φ a, φ b⟫) := by
  refine ⟨fun a b => real_inner_comm _ _, fun n x c => ?_⟩
  have : ∑ i, ∑ j, c i * c j * ⟪φ (x i), φ (x j)⟫ = ⟪∑ i, c i • φ (x i), ∑ i, c i • φ (x i)⟫ := by
    simp only [sum_inner, inner_sum, inner_smul_left, inner_smul_right, RCLike.conj_to_real]
    refine Finset.sum_congr rfl (fun i _ => ?_)
    rw [Finset.mul_sum]
    exact Finset.sum_congr rfl fun j _ => by rw [real_inner_comm]; ring
  rw [this]
  exact real_inner_self_nonneg

theorem dot_mulVec_eq {n : ℕ} (M : Matrix (Fin n) (Fin n) ℝ) (c : Fin n → ℝ) :
    star c ⬝ᵥ (M.mulVec c) = ∑ i, ∑ j, c i * c j * M i j := by
  simp only [dotProduct, Matrix.mulVec, Finset.mul_sum, Pi.star_apply, star_trivial]
  exact Finset.sum_congr rfl (fun i _ => Finset.sum_congr rfl fun j _ => by ring)

/-- Gram matrices of a positive semi-definite kernel are positive semi-definite. -/
theorem IsPSD.posSemidef {k : X → X → ℝ} (hk : IsPSD k) {n : ℕ} (x : Fin n → X) :
    (Matrix.of fun i j => k (x i) (x j) : Matrix (Fin n) (Fin n) ℝ).PosSemidef := by
  refine Matrix.PosSemidef.of_dotProduct_mulVec_nonneg (by ext i j; simp [hk.1 (x i)]) (fun v => ?_)
  rw [dot_mulVec_eq]
  exact hk.2 n x v

theorem isPSD_of_posSemidef {k : X → X → ℝ}
    (h : ∀ (n : ℕ) (x : Fin n → X), (Matrix.of fun i j => k (x i) (x j) : Matrix (Fin n) (Fin n) ℝ).PosSemidef) :
    IsPSD k := by
  refine ⟨fun a b => ?_, fun n x c => ?_⟩
  · have := (h 2 ![a, b]).isHermitian.apply 1 0
    simpa using this
  · have := (h n x).dotProduct_mulVec_nonneg c
    rwa [dot_mulVec_eq] at this

theorem IsPSD.comp {Z : Type*} {k : X → X → ℝ} (hk : IsPSD k) (g : Z → X) : IsPSD (fun a b => k (g a) (g b)) :=
  ⟨fun _ _ => hk.1 _ _, fun n x c => hk.2 n (fun i => g (x i)) c⟩

theorem IsPSD.mul {k r : X → X → ℝ} (hk : IsPSD k) (hr : IsPSD r) : IsPSD (fun a b => k a b * r a b) := by
  refine isPSD_of_posSemidef (fun n x => ?_)
  have := (hk.posSemidef x).hadamard (hr.posSemidef x)
  exact this

theorem IsPSD.add {k r : X → X → ℝ} (hk : IsPSD k) (hr : IsPSD r) : IsPSD (fun a b => k a b + r a b) := by
  refine ⟨fun a b => by simp only [hk.1 a b, hr.1 a b], fun n x c => ?_⟩
  simp only [mul_add, Finset.sum_add_distrib]
  exact add_nonneg (hk.2 n x c) (hr.2 n x c)

theorem isPSD_const {a : ℝ} (ha : 0 ≤ a) : IsPSD (fun _ _ : X => a) := by
  refine ⟨fun _ _ => rfl, fun n x c => ?_⟩
  have : ∑ i, ∑ j, c i * c j * a = a * (∑ i, c i) ^ 2 := by
    rw [pow_two, Finset.sum_mul_sum, Finset.mul_sum]
    refine Finset.sum_congr rfl (fun i _ => ?_)
    rw [Finset.mul_sum]
    exact Finset.sum_congr rfl fun j _ => by ring
  rw [this]
  positivity

theorem IsPSD.smul {k : X → X → ℝ} (hk : IsPSD k) {a : ℝ} (ha : 0 ≤ a) : IsPSD (fun x y => a * k x y) :=
  (isPSD_const ha).mul hk

theorem IsPSD.pow {k : X → X → ℝ} (hk : IsPSD k) (p : ℕ) : IsPSD (fun x y => k x y ^ p) := by
  induction p with
  | zero => simpa using isPSD_const (X := X) zero_le_one
  | succ p ih => simpa [pow_succ] using ih.mul hk

/-- The squared MMD is the squared distance of the mean embeddings. -/
theorem mmdSq_eq_norm {H : Type*} [NormedAddCommGroup H] [InnerProductSpace ℝ H] (φ : X → H) {k : X → X → ℝ}
    (hk : ∀ a b, k a b = ⟪φ a, φ b⟫) {n m : ℕ} (x : Fin n → X) (wx : Fin n → ℝ) (y : Fin m → X) (wy : Fin m → ℝ) :
    mmdSq k x wx y wy = ‖meanEmbedding φ x wx - meanEmbedding φ y wy‖ ^ 2 := by
  have key : ∀ {n m : ℕ} (x : Fin n → X) (wx : Fin n → ℝ) (y : Fin m → X) (wy : Fin m → ℝ),
      avg wx (fun i => avg wy fun j => k (x i) (y j)) = ⟪meanEmbedding φ x wx, meanEmbedding φ y wy⟫ := by
    intro n m x wx y wy
    simp only [avg, meanEmbedding, inner_smul_left, inner_smul_right, sum_inner, inner_sum, RCLike.conj_to_real, hk]
    simp only [div_eq_mul_inv, Finset.mul_sum, Finset.sum_mul]
    rw [Finset.sum_comm]
    refine Finset.sum_congr rfl (fun j _ => Finset.sum_congr rfl fun i _ => by ring)
  rw [norm_sub_sq_real, mmdSq, key, key, key, real_inner_self_eq_norm_sq, real_inner_self_eq_norm_sq]

/-- An average depends on the sample only through the mass that it puts on every point. -/
theorem avg_eq_of_massAt {n m : ℕ} (x : Fin n → X) (w : Fin n → ℝ) (x' : Fin m → X) (w' : Fin m → ℝ)
    (h : ∀ a, massAt x w a / ∑ i, w i = massAt x' w' a / ∑ i, w' i) (f : X → ℝ) :
    avg w (fun i => f (x i)) = avg w' (fun i => f (x' i)) := by
  classical
  let S : Finset X := Finset.univ.image x ∪ Finset.univ.image x'
  have key : ∀ {n : ℕ} (x : Fin n → X) (w : Fin n → ℝ), (∀ i, x i ∈ S) →
      avg w (fun i => f (x i)) = ∑ a ∈ S, massAt x w a / (∑ i, w i) * f a := by
    intro n x w hS
    simp only [avg, massAt, div_mul_eq_mul_div]
    rw [← Finset.sum_div]
    congr 1
    simp only [Finset.sum_mul]
    rw [Finset.sum_comm]
    refine Finset.sum_congr rfl (fun i _ => ?_)
    rw [Finset.sum_eq_single (x i)]
    · simp
    · intro b _ hb
      rw [if_neg (fun h => hb h.symm)]
      simp
    · exact fun hh => absurd (hS i) hh
  rw [key x w (fun i => by simp [S]), key x' w' (fun i => by simp [S])]
  exact Finset.sum_congr rfl (fun a _ => by rw [h a])

end Coreax.Spec
