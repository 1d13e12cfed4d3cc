import Verif.Model.LeastSquares
import Verif.Spec.LeastSquares
import Verif.Lemmas.RPC
import Mathlib.LinearAlgebra.Matrix.NonsingularInverse
import Mathlib.Analysis.Matrix.Spectrum
import Mathlib.Analysis.InnerProductSpace.PiL2

/-!
# Lemmas about least squares and eigendecompositions
-/

set_option linter.unusedSectionVars false

namespace Coreax

open Matrix Spec Ext

/-- What is assumed of `jnp.linalg.lstsq` (trusted; exact arithmetic and exact rank determination). -/
def LstsqContract {K : Type*} [Field K] (lstsq : LinSolve K) : Prop :=
  ∀ {n q : ℕ} (M : Matrix (Fin n) (Fin n) K) (B : Matrix (Fin n) (Fin q) K), IsMinNormLstsq M B (lstsq M B)

/-- What is assumed of `jnp.linalg.qr` (trusted). -/
def QRContract {K : Type*} [Field K] (qr : QR K) : Prop :=
  ∀ {n r : ℕ} (M : Matrix (Fin n) (Fin r) K), (qr M).2.1ᵀ * (qr M).2.1 = 1 ∧ (qr M).2.1 * (qr M).2.2 = M

/-- What is assumed of `jnp.linalg.eigh` (trusted). -/
def EighContract {K : Type*} [Field K] (eigh : Eigh K) : Prop :=
  ∀ {s : ℕ} (M : Matrix (Fin s) (Fin s) K), Mᵀ = M →
    (eigh M).2ᵀ * (eigh M).2 = 1 ∧ (eigh M).2 * diagonal (eigh M).1 * (eigh M).2ᵀ = M

theorem collect_ok_iff {α : Type*} : ∀ {l : ℕ} (f : Fin l → Except Err α) (r : Fin l → α),
    collect f = .ok r ↔ ∀ t, f t = .ok (r t)
  | 0, f, r => by
    simp only [collect, Except.ok.injEq]
    exact ⟨fun _ t => t.elim0, fun _ => funext fun t => t.elim0⟩
  | l + 1, f, r => by
    simp only [collect]
    rcases h0 : f 0 with e | a
    · simp only [reduceCtorEq, false_iff, not_forall]
      exact ⟨0, by rw [h0]; simp⟩
    · rcases h1 : collect (fun t => f t.succ) with e | r'
      · simp only [reduceCtorEq, false_iff]
        intro h
        have := (collect_ok_iff (fun t => f t.succ) (fun t => r t.succ)).2 (fun t => h t.succ)
        rw [h1] at this
        simp at this
      · have ih := (collect_ok_iff (fun t => f t.succ) r').1 h1
        simp only [Except.ok.injEq]
        constructor
        · rintro rfl t
          refine Fin.cases ?_ (fun t => ?_) t
          · simpa using h0
          · simpa using ih t
        · intro h
          funext t
          refine Fin.cases ?_ (fun t => ?_) t
          · have := h 0; rw [h0] at this; simpa using this
          · have := h t.succ; rw [ih t] at this; simpa using this

section
variable {K : Type*} [Field K] [LinearOrder K] [IsStrictOrderedRing K] {n m q : ℕ}

/-- `MᵀZ = 0` if `MMᵀZ = 0`. -/
theorem mul_transpose_eq_zero {M : Matrix (Fin n) (Fin m) K} {Y : Matrix (Fin n) (Fin q) K} (h : M * (Mᵀ * Y) = 0) :
    Mᵀ * Y = 0 := by
  have h1 : (Mᵀ * Y)ᵀ * (Mᵀ * Y) = 0 := by
    rw [Matrix.transpose_mul, Matrix.transpose_transpose, Matrix.mul_assoc, h, Matrix.mul_zero]
  ext i j
  have h2 := congrFun (congrFun h1 j) j
  rw [Matrix.mul_apply] at h2
  simp only [Matrix.transpose_apply, Matrix.zero_apply] at h2
  have h3 := (Finset.sum_eq_zero_iff_of_nonneg (fun i _ => mul_self_nonneg _)).1 h2 i (Finset.mem_univ _)
  exact mul_self_eq_zero.1 h3

theorem isMinNormLstsq_unique {M : Matrix (Fin n) (Fin m) K} {B : Matrix (Fin n) (Fin q) K} {X Z : Matrix (Fin m) (Fin q) K}
    (hX : IsMinNormLstsq M B X) (hZ : IsMinNormLstsq M B Z) : X = Z := by
  obtain ⟨Y, hY⟩ := hX.rowSpace
  obtain ⟨Y', hY'⟩ := hZ.rowSpace
  have h1 : Mᵀ * (M * (X - Z)) = 0 := by rw [Matrix.mul_sub, Matrix.mul_sub, hX.normal, hZ.normal, sub_self]
  have h2 : M * (X - Z) = 0 := by
    have := mul_transpose_eq_zero (M := Mᵀ) (Y := X - Z) (by rw [Matrix.transpose_transpose]; exact h1)
    rwa [Matrix.transpose_transpose] at this
  have h3 : X - Z = Mᵀ * (Y - Y') := by rw [Matrix.mul_sub, ← hY, ← hY']
  rw [h3] at h2
  have := mul_transpose_eq_zero h2
  rw [← h3] at this
  exact sub_eq_zero.1 this

/-- Sum of squares of the entries of a column. -/
theorem sum_sq_split (a b : Fin n → K) (h : ∑ i, a i * b i = 0) :
    ∑ i, (a i + b i) * (a i + b i) = ∑ i, a i * a i + ∑ i, b i * b i := by
  have : ∀ i, (a i + b i) * (a i + b i) = a i * a i + b i * b i + 2 * (a i * b i) := fun i => by ring
  simp only [this, Finset.sum_add_distrib, ← Finset.mul_sum, h]
  ring

theorem isMinNormLstsq_optimal {M : Matrix (Fin n) (Fin m) K} {B : Matrix (Fin n) (Fin q) K}
    {X : Matrix (Fin m) (Fin q) K} (hX : IsMinNormLstsq M B X) (Z : Matrix (Fin m) (Fin q) K) (j : Fin q) :
    ∑ i, (M * X - B) i j * (M * X - B) i j ≤ ∑ i, (M * Z - B) i j * (M * Z - B) i j ∧
    (∑ i, (M * Z - B) i j * (M * Z - B) i j = ∑ i, (M * X - B) i j * (M * X - B) i j →
      ∑ i, X i j * X i j ≤ ∑ i, Z i j * Z i j) := by
  have horth : ∑ i, (M * X - B) i j * (M * (Z - X)) i j = 0 := by
    have h : (M * (Z - X))ᵀ * (M * X - B) = 0 := by
      rw [Matrix.transpose_mul, Matrix.mul_assoc, Matrix.mul_sub, hX.normal, sub_self, Matrix.mul_zero]
    have := congrFun (congrFun h j) j
    rw [Matrix.mul_apply] at this
    simp only [Matrix.transpose_apply, Matrix.zero_apply] at this
    rw [← this]
    exact Finset.sum_congr rfl fun i _ => mul_comm _ _
  have hsplit : ∑ i, (M * Z - B) i j * (M * Z - B) i j =
      ∑ i, (M * X - B) i j * (M * X - B) i j + ∑ i, (M * (Z - X)) i j * (M * (Z - X)) i j := by
    rw [← sum_sq_split _ _ horth]
    refine Finset.sum_congr rfl fun i _ => ?_
    have : (M * Z - B) i j = (M * X - B) i j + (M * (Z - X)) i j := by
      rw [Matrix.mul_sub]; simp
    rw [this]
  refine ⟨by rw [hsplit]; exact le_add_of_nonneg_right (Finset.sum_nonneg fun i _ => mul_self_nonneg _), fun heq => ?_⟩
  rw [hsplit] at heq
  have h0 : ∑ i, (M * (Z - X)) i j * (M * (Z - X)) i j = 0 := by linarith
  have h0' : ∀ i, (M * (Z - X)) i j = 0 := fun i =>
    mul_self_eq_zero.1 ((Finset.sum_eq_zero_iff_of_nonneg (fun i _ => mul_self_nonneg _)).1 h0 i (Finset.mem_univ _))
  obtain ⟨Y, hY⟩ := hX.rowSpace
  have horth2 : ∑ i, X i j * (Z - X) i j = 0 := by
    have : ∑ i, X i j * (Z - X) i j = (Yᵀ * (M * (Z - X))) j j := by
      rw [← Matrix.mul_assoc]
      rw [Matrix.mul_apply]
      refine Finset.sum_congr rfl fun i _ => ?_
      congr 1
      rw [hY]
      simp only [Matrix.mul_apply, Matrix.transpose_apply]
      exact Finset.sum_congr rfl fun l _ => mul_comm _ _
    rw [this, Matrix.mul_apply]
    exact Finset.sum_eq_zero fun i _ => by rw [h0' i, mul_zero]
  have : ∑ i, Z i j * Z i j = ∑ i, X i j * X i j + ∑ i, (Z - X) i j * (Z - X) i j := by
    rw [← sum_sq_split _ _ horth2]
    refine Finset.sum_congr rfl fun i _ => ?_
    have : Z i j = X i j + (Z - X) i j := by simp
    rw [← this]
  rw [this]
  exact le_add_of_nonneg_right (Finset.sum_nonneg fun i _ => mul_self_nonneg _)

/-- The range finder captures the range of a symmetric matrix if the draws do. -/
theorem rangeFinder_capture {qr : QR K} (hqr : QRContract qr) {r : ℕ} {M : Matrix (Fin n) (Fin n) K} (hM : Mᵀ = M)
    {draws : Matrix (Fin n) (Fin r) K} (hd : ∃ Z : Matrix (Fin r) (Fin n) K, M = M * draws * Z) (it : ℕ) :
    (rangeFinder qr M draws it).2ᵀ * (rangeFinder qr M draws it).2 = 1 ∧
      (rangeFinder qr M draws it).2 * ((rangeFinder qr M draws it).2ᵀ * M) = M := by
  -- the orthonormal factor reproduces what it was computed from
  have key : ∀ {a b : ℕ} (N : Matrix (Fin a) (Fin b) K), (qr N).2.1 * ((qr N).2.1ᵀ * N) = N := by
    intro a b N
    obtain ⟨h1, h2⟩ := hqr N
    calc (qr N).2.1 * ((qr N).2.1ᵀ * N) = (qr N).2.1 * ((qr N).2.1ᵀ * ((qr N).2.1 * (qr N).2.2)) := by rw [h2]
      _ = (qr N).2.1 * (((qr N).2.1ᵀ * (qr N).2.1) * (qr N).2.2) := by rw [Matrix.mul_assoc (qr N).2.1ᵀ]
      _ = N := by rw [h1, Matrix.one_mul, h2]
  have step : ∀ {a b : ℕ} (Q : Matrix (Fin n) (Fin a) K) (Q1 : Matrix (Fin n) (Fin b) K), Q * (Qᵀ * M) = M →
      Q1 * (Q1ᵀ * (M * Q)) = M * Q → Q1 * (Q1ᵀ * M) = M := by
    intro a b Q Q1 h1 h2
    -- `M = M Q Qᵀ`, as `M` is symmetric
    have hT : M * Q * Qᵀ = M := by
      have := congrArg Matrix.transpose h1
      rw [Matrix.transpose_mul, Matrix.transpose_mul, Matrix.transpose_transpose, hM] at this
      exact this
    calc Q1 * (Q1ᵀ * M) = Q1 * (Q1ᵀ * (M * Q * Qᵀ)) := by rw [hT]
      _ = (Q1 * (Q1ᵀ * (M * Q))) * Qᵀ := by simp only [Matrix.mul_assoc]
      _ = M := by rw [h2, hT]
  unfold rangeFinder
  simp only
  induction it with
  | zero =>
    simp only [Function.iterate_zero, id_eq]
    refine ⟨(hqr _).1, ?_⟩
    obtain ⟨Z, hZ⟩ := hd
    calc (qr (M * draws)).2.1 * ((qr (M * draws)).2.1ᵀ * M)
        = (qr (M * draws)).2.1 * ((qr (M * draws)).2.1ᵀ * (M * draws * Z)) := by rw [← hZ]
      _ = ((qr (M * draws)).2.1 * ((qr (M * draws)).2.1ᵀ * (M * draws))) * Z := by simp only [Matrix.mul_assoc]
      _ = M := by rw [key, ← hZ]
  | succ it ih =>
    rw [Function.iterate_succ_apply']
    set q := (powerStep qr M)^[it] ⟨(qr (M * draws)).1, (qr (M * draws)).2.1⟩ with hq
    obtain ⟨-, hcap⟩ := ih
    simp only [powerStep]
    set q1 := (qr (Mᵀ * q.2)).2.1 with hq1
    refine ⟨(hqr _).1, ?_⟩
    have e : Mᵀ * q.2 = M * q.2 := by rw [hM]
    have hq1c : q1 * (q1ᵀ * M) = M := step q.2 q1 hcap (by rw [← e]; exact key _)
    exact step q1 _ hq1c (key _)

/-- The randomised eigendecomposition is exact if the draws capture the range. -/
theorem randomisedEig_exact {qr : QR K} (hqr : QRContract qr) {eigh : Eigh K} (he : EighContract eigh) {r : ℕ}
    {M : Matrix (Fin n) (Fin n) K} (hM : Mᵀ = M)
    {draws : Matrix (Fin n) (Fin r) K} (hd : ∃ Z : Matrix (Fin r) (Fin n) K, M = M * draws * Z) (it : ℕ) :
    (randomisedEig qr eigh M draws it).2.2ᵀ * (randomisedEig qr eigh M draws it).2.2 = 1 ∧
      (randomisedEig qr eigh M draws it).2.2 * diagonal (randomisedEig qr eigh M draws it).2.1 *
        (randomisedEig qr eigh M draws it).2.2ᵀ = M := by
  obtain ⟨h1, h2⟩ := rangeFinder_capture hqr hM hd it
  simp only [randomisedEig]
  set q := rangeFinder qr M draws it
  have hT : M * q.2 * q.2ᵀ = M := by
    have := congrArg Matrix.transpose h2
    rw [Matrix.transpose_mul, Matrix.transpose_mul, Matrix.transpose_transpose, hM] at this
    exact this
  have hsym : (q.2ᵀ * M * q.2)ᵀ = q.2ᵀ * M * q.2 := by
    rw [Matrix.transpose_mul, Matrix.transpose_mul, Matrix.transpose_transpose, hM, Matrix.mul_assoc]
  obtain ⟨h3, h4⟩ := he (q.2ᵀ * M * q.2) hsym
  set e := eigh (q.2ᵀ * M * q.2)
  constructor
  · rw [Matrix.transpose_mul]
    calc e.2ᵀ * q.2ᵀ * (q.2 * e.2) = e.2ᵀ * ((q.2ᵀ * q.2) * e.2) := by simp only [Matrix.mul_assoc]
      _ = 1 := by rw [h1, Matrix.one_mul, h3]
  · rw [Matrix.transpose_mul]
    calc q.2 * e.2 * diagonal e.1 * (e.2ᵀ * q.2ᵀ) = q.2 * (e.2 * diagonal e.1 * e.2ᵀ) * q.2ᵀ := by
          simp only [Matrix.mul_assoc]
      _ = (q.2 * (q.2ᵀ * M)) * q.2 * q.2ᵀ := by rw [h4]; simp only [Matrix.mul_assoc]
      _ = M := by rw [h2, hT]

/-- The inverse of an eigendecomposition whose eigenvalues are zero or well above the threshold. -/
theorem eigInvert_exact {s : ℕ} {ev : Fin s → K} {U : Matrix (Fin n) (Fin s) K} {M : Matrix (Fin n) (Fin n) K}
    (hU : Uᵀ * U = 1) (hMU : U * diagonal ev * Uᵀ = M) {c b : K} (hc : 0 < c) (hb : 0 < b) (hgap : SpectralGap M c b)
    (hne : M ≠ 0) :
    eigInvert ev U c = .ok ((U * diagonal (fun i => (ev i)⁻¹) * Uᵀ).map Ext.fin) := by
  have heig : ∀ i, ev i = 0 ∨ c * b ≤ ev i ∧ ev i ≤ b := by
    intro i
    refine hgap (fun a => U a i) (ev i) ?_ ?_
    · intro h0
      have := congrFun (congrFun hU i) i
      rw [Matrix.mul_apply] at this
      simp only [Matrix.transpose_apply, Matrix.one_apply_eq] at this
      have h0' : ∀ a, U a i = 0 := fun a => congrFun h0 a
      simp [h0'] at this
    · have h1 : M * U = U * diagonal ev := by
        rw [← hMU]
        calc U * diagonal ev * Uᵀ * U = U * diagonal ev * (Uᵀ * U) := by simp only [Matrix.mul_assoc]
          _ = U * diagonal ev := by rw [hU, Matrix.mul_one]
      funext a
      have := congrFun (congrFun h1 a) i
      rw [Matrix.mul_diagonal, Matrix.mul_apply] at this
      simp only [Matrix.mulVec, dotProduct, Pi.smul_apply, smul_eq_mul]
      rw [this, mul_comm]
  have hex : ∃ i, ev i ≠ 0 := by
    by_contra hall
    push Not at hall
    apply hne
    rw [← hMU]
    have : diagonal ev = 0 := by
      ext a b
      by_cases hab : a = b
      · subst hab; simp [hall a]
      · simp [hab]
    rw [this, Matrix.mul_zero, Matrix.zero_mul]
  obtain ⟨i0, hi0⟩ := hex
  rcases hm : (List.ofFn ev).max? with _ | m
  · rw [List.max?_eq_none_iff] at hm
    have := List.ofFn_eq_nil_iff.1 hm
    subst this
    exact i0.elim0
  · obtain ⟨hmem, hmax⟩ := List.max?_eq_some_iff.1 hm
    have hev0 : 0 < ev i0 := lt_of_lt_of_le (mul_pos hc hb) ((heig i0).resolve_left hi0).1
    have hm0 : 0 < m := lt_of_lt_of_le hev0 (hmax _ (List.mem_ofFn.2 ⟨i0, rfl⟩))
    have hmb : m ≤ b := by
      obtain ⟨i, hi⟩ := List.mem_ofFn.1 hmem
      rw [← hi]
      rcases heig i with h | h
      · rw [h]; exact hb.le
      · exact h.2
    have hinv : ∀ i, inverseEigenvalue c m (ev i) = Ext.fin (ev i)⁻¹ := by
      intro i
      unfold inverseEigenvalue
      rcases heig i with h | h
      · rw [if_neg (by rw [h]; exact not_le.2 (mul_pos hc hm0)), h, _root_.inv_zero]
      · have hpos : 0 < ev i := lt_of_lt_of_le (mul_pos hc hb) h.1
        rw [if_pos (le_trans (mul_le_mul_of_nonneg_left hmb hc.le) h.1), fin_div_fin hpos.ne', one_div]
    simp only [eigInvert, hm]
    congr 1
    ext a b
    simp only [hinv, fin_mul_fin, sum_fin, Matrix.map_apply]
    congr 1
    rw [Matrix.mul_apply]
    refine Finset.sum_congr rfl fun i _ => ?_
    rw [Matrix.mul_diagonal, Matrix.transpose_apply]
    ring

theorem pinv_isMinNorm {s : ℕ} {ev : Fin s → K} {U : Matrix (Fin n) (Fin s) K} {M : Matrix (Fin n) (Fin n) K}
    (hU : Uᵀ * U = 1) (hMU : U * diagonal ev * Uᵀ = M) (hM : Mᵀ = M) (B : Matrix (Fin n) (Fin q) K) :
    IsMinNormLstsq M B (U * diagonal (fun i => (ev i)⁻¹) * Uᵀ * B) := by
  have hdd : ∀ d d' : Fin s → K, (U * diagonal d * Uᵀ) * (U * diagonal d' * Uᵀ) = U * diagonal (fun i => d i * d' i) * Uᵀ := by
    intro d d'
    calc (U * diagonal d * Uᵀ) * (U * diagonal d' * Uᵀ) = U * diagonal d * ((Uᵀ * U) * (diagonal d' * Uᵀ)) := by
          simp only [Matrix.mul_assoc]
      _ = U * (diagonal d * diagonal d') * Uᵀ := by rw [hU, Matrix.one_mul]; simp only [Matrix.mul_assoc]
      _ = _ := by rw [Matrix.diagonal_mul_diagonal]
  constructor
  · rw [hM]
    have h1 : M * (M * (U * diagonal (fun i => (ev i)⁻¹) * Uᵀ)) = M := by
      rw [← hMU, hdd, hdd]
      congr 2
      refine congrArg diagonal (funext fun i => ?_)
      by_cases h : ev i = 0
      · simp [h]
      · field_simp
    rw [← Matrix.mul_assoc M (U * diagonal (fun i => (ev i)⁻¹) * Uᵀ) B, ← Matrix.mul_assoc M _ B, h1]
  · refine ⟨U * diagonal (fun i => (ev i)⁻¹ * (ev i)⁻¹) * Uᵀ * B, ?_⟩
    rw [hM, ← Matrix.mul_assoc M]
    congr 1
    rw [← hMU, hdd]
    congr 2
    refine congrArg diagonal (funext fun i => ?_)
    by_cases h : ev i = 0
    · simp [h]
    · field_simp

end

end Coreax
