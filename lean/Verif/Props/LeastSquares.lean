import Verif.Lemmas.LeastSquares
import Verif.Lemmas.KernelGrad

/-!
# C31: regularised least squares
-/

set_option linter.unusedSectionVars false

namespace Coreax

open Matrix Spec Ext

section
variable {K : Type*} [Field K] [LinearOrder K] [IsStrictOrderedRing K] {n q : ℕ}

/-- The specification determines the solution, and that solution is optimal: least residual, and least norm among the
minimisers, column by column. -/
theorem C31_spec_optimal {m : ℕ} {M : Matrix (Fin n) (Fin m) K} {B : Matrix (Fin n) (Fin q) K}
    {X : Matrix (Fin m) (Fin q) K} (hX : IsMinNormLstsq M B X) :
    (∀ Z, IsMinNormLstsq M B Z → Z = X) ∧
    ∀ (Z : Matrix (Fin m) (Fin q) K) (j : Fin q),
      ∑ i, (M * X - B) i j * (M * X - B) i j ≤ ∑ i, (M * Z - B) i j * (M * Z - B) i j ∧
      (∑ i, (M * Z - B) i j * (M * Z - B) i j = ∑ i, (M * X - B) i j * (M * X - B) i j →
        ∑ i, X i j * X i j ≤ ∑ i, Z i j * Z i j) :=
  ⟨fun _ hZ => isMinNormLstsq_unique hZ hX, isMinNormLstsq_optimal hX⟩

example := C31_spec_optimal (M := (1 : Matrix (Fin 2) (Fin 2) ℚ)) (B := !![6; 1]) (X := !![6; 1]) ⟨by simp, !![6; 1], by simp⟩

/-- The default solver solves the regularised system exactly when it is regular. -/
theorem C31_minimal_exact {lstsq : LinSolve K} (h : LstsqContract lstsq) (A I : Matrix (Fin n) (Fin n) K) (reg : K)
    (B : Matrix (Fin n) (Fin q) K) (hreg : IsUnit (A + |reg| • I).det) :
    ∃ X, minNormSolve lstsq A reg B I = .ok (X.map Ext.fin) ∧ (A + |reg| • I) * X = B := by
  refine ⟨_, rfl, ?_⟩
  have hn := (h (A + |reg| • I) B).normal
  have hu : IsUnit (A + |reg| • I)ᵀ.det := by rwa [Matrix.det_transpose]
  have := congrArg (fun Z => (A + |reg| • I)ᵀ⁻¹ * Z) hn
  simpa only [← Matrix.mul_assoc, Matrix.nonsing_inv_mul _ hu, Matrix.one_mul] using this

/-- The sign of the regularisation parameter is irrelevant. -/
theorem C31_sign {lstsq : LinSolve K} (eps : K) (qr : QR K) (eigh : Eigh K)
    (draws : ∀ n, (r : ℕ) × Matrix (Fin n) (Fin r) K) (it : ℕ) (rcond : Option K) (A I : Matrix (Fin n) (Fin n) K)
    (reg : K) (B : Matrix (Fin n) (Fin q) K) :
    minNormSolve lstsq A (-reg) B I = minNormSolve lstsq A reg B I ∧
    randomisedSolve eps qr eigh draws it rcond A (-reg) B I = randomisedSolve eps qr eigh draws it rcond A reg B I := by
  have h : |(-reg)| = |reg| := abs_neg reg
  constructor
  · simp only [minNormSolve]; rw [h]
  · simp only [randomisedSolve]; rw [h]

/-- "Block inversion": if array, identity and target vanish outside a block (index set `p`) and the regularised block is
regular, the solution solves the block and vanishes outside. -/
theorem C31_block (A : Matrix (Fin n) (Fin n) K) (hA : Aᵀ = A) (reg : K) (p : Fin n → Prop) [DecidablePred p]
    (hAp : ∀ i j, ¬ p i → A i j = 0) (B X : Matrix (Fin n) (Fin q) K) (hB : ∀ i j, ¬ p i → B i j = 0)
    (hinj : ∀ v : Fin n → K, (∀ i, ¬ p i → v i = 0) →
      (A + |reg| • diagonal (fun i => if p i then 1 else 0)) *ᵥ v = 0 → v = 0)
    (hX : IsMinNormLstsq (A + |reg| • diagonal (fun i => if p i then 1 else 0)) B X) :
    (A + |reg| • diagonal (fun i => if p i then 1 else 0)) * X = B ∧ ∀ i j, ¬ p i → X i j = 0 := by
  set M := A + |reg| • diagonal (fun i => if p i then (1 : K) else 0) with hM
  have hMT : Mᵀ = M := by
    rw [hM, Matrix.transpose_add, Matrix.transpose_smul, Matrix.diagonal_transpose, hA]
  have hMp : ∀ i j, ¬ p i → M i j = 0 := by
    intro i j hi
    rw [hM, Matrix.add_apply, hAp i j hi, Matrix.smul_apply]
    by_cases hij : i = j
    · subst hij; simp [hi]
    · simp [hij]
  constructor
  · have hW : ∀ j, M *ᵥ (fun i => (M * X - B) i j) = 0 := by
      intro j
      have h := hX.normal
      rw [hMT] at h
      have h' : M * (M * X - B) = 0 := by rw [Matrix.mul_sub, h, sub_self]
      funext i
      have := congrFun (congrFun h' i) j
      rw [Matrix.mul_apply] at this
      simpa [Matrix.mulVec, dotProduct] using this
    ext i j
    have := hinj (fun i => (M * X - B) i j) (fun i hi => by
      simp only [Matrix.sub_apply, hB i j hi, sub_zero]
      rw [Matrix.mul_apply]
      exact Finset.sum_eq_zero fun l _ => by rw [hMp i l hi, zero_mul]) (hW j)
    have := congrFun this i
    simpa [sub_eq_zero] using this
  · intro i j hi
    obtain ⟨Y, hY⟩ := hX.rowSpace
    rw [hY, hMT, Matrix.mul_apply]
    exact Finset.sum_eq_zero fun l _ => by rw [hMp i l hi, zero_mul]

/-- The second row is absent; the first equation has a unique solution. -/
example := C31_block (!![2, 0; 0, 0] : Matrix (Fin 2) (Fin 2) ℚ) (by decide +kernel) 1 (fun i => i = 0) (fun i j h => by fin_cases i; exacts [absurd rfl h, by fin_cases j <;> rfl]) !![6; 0] !![2; 0]
  (fun i j h => by fin_cases i; exacts [absurd rfl h, by fin_cases j; rfl])
  (fun v h0 h => by
    have h1 := congrFun h 0
    simp [Matrix.mulVec, Matrix.diagonal, dotProduct, Fin.sum_univ_two] at h1
    have h2 := h0 1 (by simp)
    ext i; fin_cases i
    · simp only [Fin.zero_eta, Pi.zero_apply]; exact h1.resolve_left (by norm_num)
    · simpa using h2)
  ⟨by decide +kernel, !![2 / 3; 0], by decide +kernel⟩

/-- The documented cut-off ratios: without `rcond` it is the machine precision times the number of rows, and `-1` stands for the machine precision. -/
theorem C31_default_rcond (qr : QR K) (eigh : Eigh K) {eps : K} (heps : 0 ≤ eps) (draws : ∀ n, (r : ℕ) × Matrix (Fin n) (Fin r) K) (it : ℕ)
    (A I : Matrix (Fin n) (Fin n) K) (reg : K) (B : Matrix (Fin n) (Fin q) K) :
    randomisedSolve eps qr eigh draws it none A reg B I = randomisedSolve eps qr eigh draws it (some (n * eps)) A reg B I ∧
      randomisedSolve eps qr eigh draws it (some (-1)) A reg B I = randomisedSolve eps qr eigh draws it (some eps) A reg B I := by
  have h1 : (n : K) * eps ≠ -1 := by
    have : 0 ≤ (n : K) * eps := by positivity
    intro h; linarith
  have h2 : eps ≠ -1 := by intro h; linarith
  simp only [randomisedSolve, resolveRcond, if_neg h1, if_neg h2, mul_comm eps, if_true, and_self]

example (qr : QR ℚ) (eigh : Eigh ℚ) := C31_default_rcond qr eigh (eps := 1 / 1000) (by norm_num) (fun n => ⟨n, 1⟩) 1 (!![2, 0; 0, 1] : Matrix (Fin 2) (Fin 2) ℚ) 1 0 !![6; 1]

/-- The randomised solver returns the same minimal-norm solution, provided the matrix is symmetric and not zero, the random
draws capture its range, and its eigenvalues are zero or lie between `rcond·b` and `b`. -/
theorem C31_randomised {qr : QR K} (hqr : QRContract qr) {eigh : Eigh K} (he : EighContract eigh) (eps : K)
    (draws : ∀ n, (r : ℕ) × Matrix (Fin n) (Fin r) K) (it : ℕ) (rcond : Option K) (A I : Matrix (Fin n) (Fin n) K)
    (reg : K) (B : Matrix (Fin n) (Fin q) K) (hsym : (A + |reg| • I)ᵀ = A + |reg| • I) (hne : A + |reg| • I ≠ 0)
    (hd : ∃ Z, A + |reg| • I = (A + |reg| • I) * (draws n).2 * Z) (hc : 0 < resolveRcond eps n rcond) {b : K} (hb : 0 < b)
    (hgap : SpectralGap (A + |reg| • I) (resolveRcond eps n rcond) b) :
    ∃ X, randomisedSolve eps qr eigh draws it rcond A reg B I = .ok (X.map Ext.fin) ∧
      IsMinNormLstsq (A + |reg| • I) B X := by
  obtain ⟨h1, h2⟩ := randomisedEig_exact hqr he hsym hd it
  have h3 := eigInvert_exact h1 h2 hc hb hgap hne
  refine ⟨_, ?_, pinv_isMinNorm h1 h2 hsym B⟩
  simp only [randomisedSolve, h3]
  congr 1
  ext a j
  simp only [Matrix.map_apply, fin_mul_fin, sum_fin]
  rw [Matrix.mul_apply]

/-- Stacked problems are solved one by one, with the absolute value of the parameter. -/
theorem C31_stack (solve : RlsSolver K) {l : ℕ} (arrays : Fin l → Matrix (Fin n) (Fin n) K) (reg : K)
    (targets : Fin l → Matrix (Fin n) (Fin q) K) (I : Matrix (Fin n) (Fin n) K)
    (X : Fin l → Matrix (Fin n) (Fin q) (Ext K)) :
    solveStack solve arrays reg targets I = .ok X ↔ ∀ t, solve (arrays t) |reg| (targets t) I = .ok (X t) :=
  collect_ok_iff _ X

/-- Which values of `rcond` are rejected. -/
theorem C31_rcond_check (rcond : Option K) :
    checkRcond rcond = .error .valueError ↔ ∃ r, rcond = some r ∧ r < 0 ∧ r ≠ -1 := by
  rcases rcond with _ | r
  · simp [checkRcond]
  · by_cases h : r < 0 ∧ r ≠ -1
    · simp [checkRcond, h]
    · have : checkRcond (some r) = .ok () := by simp only [checkRcond]; rw [if_neg h]
      simp only [this, Option.some.injEq, exists_eq_left', h, reduceCtorEq]

/-- The settings with which a randomised solver can be constructed: a positive whole number of columns, a non-negative whole
number of power iterations, neither of them given as a float, and a cut-off that is absent, non-negative or −1. -/
theorem C31_check (oversampling power : Setting K) (rcond : Option K) :
    (checkRandomised oversampling power rcond = .ok () ↔
      (∃ r : ℕ, 1 ≤ r ∧ oversampling = .int r) ∧ (∃ p : ℕ, power = .int p) ∧ ∀ c, rcond = some c → 0 ≤ c ∨ c = -1) ∧
    (checkRandomised oversampling power rcond = .ok () ∨ checkRandomised oversampling power rcond = .error .valueError) := by
  have hr : checkRcond rcond = .ok () ↔ ∀ c, rcond = some c → 0 ≤ c ∨ c = -1 := by
    rcases rcond with _ | c
    · simp [checkRcond]
    · by_cases h : c < 0 ∧ c ≠ -1
      · simp only [checkRcond, if_pos h, Option.some.injEq, forall_eq', reduceCtorEq, false_iff, not_or, not_le]
        exact h
      · simp only [checkRcond, if_neg h, Option.some.injEq, forall_eq', true_iff]
        by_contra hc
        push Not at hc
        exact h hc
  have hr' : checkRcond rcond = .ok () ∨ checkRcond rcond = .error .valueError := by
    rcases rcond with _ | c
    · exact Or.inl rfl
    · by_cases h : c < 0 ∧ c ≠ -1
      · exact Or.inr (by simp [checkRcond, h])
      · exact Or.inl (by simp only [checkRcond]; rw [if_neg h])
  unfold checkRandomised
  rcases oversampling with z | x
  · by_cases hz : z ≤ 0
    · simp only [Setting.notPositiveInt, hz, decide_true, if_true, reduceCtorEq, false_iff, or_true, and_true, Setting.int.injEq]
      rintro ⟨⟨r, h1, h2⟩, -⟩
      omega
    · have h1 : ∃ r : ℕ, 1 ≤ r ∧ (Setting.int z : Setting K) = .int r := ⟨z.toNat, by omega, by congr 1; omega⟩
      rcases power with y | x
      · by_cases hy : y < 0
        · simp only [Setting.notPositiveInt, hz, decide_false, Bool.false_eq_true, if_false, Setting.notNaturalInt, hy, decide_true,
            if_true, reduceCtorEq, false_iff, or_true, and_true, Setting.int.injEq]
          rintro ⟨-, ⟨p, hp⟩, -⟩
          omega
        · have h2 : ∃ p : ℕ, (Setting.int y : Setting K) = .int p := ⟨y.toNat, by congr 1; omega⟩
          simp only [Setting.notPositiveInt, hz, decide_false, Bool.false_eq_true, if_false, Setting.notNaturalInt, hy]
          exact ⟨hr.trans ⟨fun h => ⟨h1, h2, h⟩, fun h => h.2.2⟩, hr'⟩
      · simp [Setting.notPositiveInt, Setting.notNaturalInt, hz]
  · simp [Setting.notPositiveInt]

example : checkRandomised (.int 25) (.int 1) (none : Option ℚ) = .ok () ∧
    checkRandomised (.float (Ext.fin 25)) (.int 1) (none : Option ℚ) = .error .valueError ∧
    checkRandomised (.int 1) (.int 0) (some (-1 : ℚ)) = .ok () ∧
    checkRandomised (.int 0) (.int 0) (some (-1 : ℚ)) = .error .valueError := by decide +kernel

end

/-! ### Limits -/

/-- Eigenvalues are compared with `rcond · max`, not in absolute value: a negative eigenvalue of an (indefinite, regular)
symmetric matrix is discarded, so the "inverse" of `diag(1, -1)` is `diag(1, 0)`. -/
theorem C31_negative_discarded :
    eigInvert (![-1, 1] : Fin 2 → ℚ) !![0, 1; 1, 0] (1 / 100) = .ok (fun a b => fin ((!![1, 0; 0, 0] : Matrix _ _ ℚ) a b)) ∧
    (!![0, 1; 1, 0] : Matrix (Fin 2) (Fin 2) ℚ) * diagonal ![-1, 1] * (!![0, 1; 1, 0])ᵀ = !![1, 0; 0, -1] := by
  refine ⟨?_, by decide +kernel⟩
  have hm : (List.ofFn (![-1, 1] : Fin 2 → ℚ)).max? = some 1 := by decide +kernel
  simp only [eigInvert, hm]
  congr 1
  funext a b
  revert a b
  decide +kernel

/-- The zero matrix: every eigenvalue passes the test `0 ≥ rcond · 0` and is inverted, so the result is not a number. -/
theorem C31_zero_nan (rcond : ℚ) :
    eigInvert (fun _ : Fin 1 => (0 : ℚ)) (1 : Matrix (Fin 1) (Fin 1) ℚ) rcond = .ok (fun _ _ => pinf) ∧
    eigInvert (fun _ : Fin 2 => (0 : ℚ)) (1 : Matrix (Fin 2) (Fin 2) ℚ) rcond = .ok (fun _ _ => nan) := by
  constructor
  · have hm : (List.ofFn (fun _ : Fin 1 => (0 : ℚ))).max? = some 0 := by decide +kernel
    simp only [eigInvert, hm, inverseEigenvalue, mul_zero, le_refl, if_true]
    congr 1
    funext a b
    revert a b
    decide +kernel
  · have hm : (List.ofFn (fun _ : Fin 2 => (0 : ℚ))).max? = some 0 := by decide +kernel
    simp only [eigInvert, hm, inverseEigenvalue, mul_zero, le_refl, if_true]
    congr 1
    funext a b
    revert a b
    decide +kernel

/-! ### The contracts can be met (over the reals) -/

theorem exists_eigh : ∃ eigh : Eigh ℝ, EighContract eigh := by
  have h : ∀ (s : ℕ) (M : Matrix (Fin s) (Fin s) ℝ), ∃ e : (Fin s → ℝ) × Matrix (Fin s) (Fin s) ℝ, Mᵀ = M →
      e.2ᵀ * e.2 = 1 ∧ e.2 * diagonal e.1 * e.2ᵀ = M := by
    intro s M
    by_cases hM : Mᵀ = M
    · have hH : M.IsHermitian := by
        rw [Matrix.IsHermitian, Matrix.conjTranspose_eq_transpose_of_trivial]; exact hM
      refine ⟨(hH.eigenvalues, (hH.eigenvectorUnitary : Matrix (Fin s) (Fin s) ℝ)), fun _ => ⟨?_, ?_⟩⟩
      · have := Unitary.coe_star_mul_self hH.eigenvectorUnitary
        rwa [Matrix.star_eq_conjTranspose, Matrix.conjTranspose_eq_transpose_of_trivial] at this
      · have := hH.spectral_theorem
        conv_rhs => rw [this]
        rw [Unitary.conjStarAlgAut_apply, Matrix.star_eq_conjTranspose, Matrix.conjTranspose_eq_transpose_of_trivial]
        rfl
    · exact ⟨(0, 0), fun h => absurd h hM⟩
  choose f hf using h
  exact ⟨fun {s} M => f s M, fun {s} M hM => hf s M hM⟩

theorem exists_qr : ∃ qr : QR ℝ, QRContract qr :=
  ⟨fun {n _} M => ⟨n, 1, M⟩, fun M => ⟨by simp, by simp⟩⟩

theorem exists_lstsq : ∃ lstsq : LinSolve ℝ, LstsqContract lstsq := by
  obtain ⟨eigh, he⟩ := exists_eigh
  refine ⟨fun {n q} M B => (eigh (Mᵀ * M)).2 * diagonal (fun i => ((eigh (Mᵀ * M)).1 i)⁻¹) * (eigh (Mᵀ * M)).2ᵀ * (Mᵀ * B), ?_⟩
  intro n q M B
  have hs : (Mᵀ * M)ᵀ = Mᵀ * M := by rw [Matrix.transpose_mul, Matrix.transpose_transpose]
  obtain ⟨h1, h2⟩ := he _ hs
  have h := pinv_isMinNorm h1 h2 hs (Mᵀ * B)
  set X := (eigh (Mᵀ * M)).2 * diagonal (fun i => ((eigh (Mᵀ * M)).1 i)⁻¹) * (eigh (Mᵀ * M)).2ᵀ * (Mᵀ * B)
  constructor
  · have h3 := h.normal
    rw [hs] at h3
    have h4 : Mᵀ * (M * (Mᵀ * (M * X - B))) = 0 := by
      have : Mᵀ * (M * (Mᵀ * (M * X - B))) = Mᵀ * M * (Mᵀ * M * X) - Mᵀ * M * (Mᵀ * B) := by
        simp only [Matrix.mul_sub, Matrix.mul_assoc]
      rw [this, h3, sub_self]
    have h5 : M * (Mᵀ * (M * X - B)) = 0 := by
      have := mul_transpose_eq_zero (M := Mᵀ) (Y := Mᵀ * (M * X - B)) (by rw [Matrix.transpose_transpose]; exact h4)
      rwa [Matrix.transpose_transpose] at this
    have h6 := mul_transpose_eq_zero h5
    rw [Matrix.mul_sub] at h6
    exact sub_eq_zero.1 h6
  · obtain ⟨Y, hY⟩ := h.rowSpace
    refine ⟨M * Y, ?_⟩
    change X = _
    rw [hY, hs, Matrix.mul_assoc]

/-- The hypotheses of `C31_randomised` can be met: `diag(2, 1)` regularised by one on the first entry only, draws that capture
everything, tolerance 1/10. -/
example : ∃ (qr : QR ℝ) (eigh : Eigh ℝ) (X : Matrix (Fin 2) (Fin 1) ℝ),
    randomisedSolve 0 qr eigh (fun n => ⟨n, 1⟩) 1 (some (1 / 10)) !![2, 0; 0, 1] (-1) !![6; 1] !![1, 0; 0, 0] =
      .ok (X.map Ext.fin) ∧ IsMinNormLstsq (!![2, 0; 0, 1] + |(-1 : ℝ)| • !![1, 0; 0, 0]) !![6; 1] X := by
  obtain ⟨eigh, he⟩ := exists_eigh
  obtain ⟨qr, hqr⟩ := exists_qr
  have hM : (!![2, 0; 0, 1] + |(-1 : ℝ)| • !![1, 0; 0, 0] : Matrix (Fin 2) (Fin 2) ℝ) = !![3, 0; 0, 1] := by
    ext i j
    fin_cases i <;> fin_cases j <;> norm_num
  have hc : resolveRcond (0 : ℝ) 2 (some (1 / 10)) = 1 / 10 := by
    simp only [resolveRcond]; norm_num
  obtain ⟨X, h1, h2⟩ := C31_randomised hqr he 0 (fun n => ⟨n, (1 : Matrix (Fin n) (Fin n) ℝ)⟩) 1 (some (1 / 10))
    !![2, 0; 0, 1] !![1, 0; 0, 0] (-1) (!![6; 1] : Matrix (Fin 2) (Fin 1) ℝ)
    (by rw [hM]; ext i j; fin_cases i <;> fin_cases j <;> simp)
    (by rw [hM]; intro h; have := congrFun (congrFun h 0) 0; norm_num at this)
    ⟨1, by simp⟩ (by rw [hc]; norm_num) (b := 3) (by norm_num) (by
      rw [hM, hc]
      intro v μ hv h
      have h0 := congrFun h 0
      have h1 := congrFun h 1
      simp [Matrix.mulVec, dotProduct] at h0 h1
      right
      by_cases hv0 : v 0 = 0
      · have hv1 : v 1 ≠ 0 := by
          intro hv1; apply hv; funext i; fin_cases i <;> simp [hv0, hv1]
        have : μ = 1 := by
          have : (μ - 1) * v 1 = 0 := by linarith
          rcases mul_eq_zero.1 this with h | h
          · linarith
          · exact absurd h hv1
        rw [this]; norm_num
      · have : μ = 3 := by
          rcases h0 with h | h
          · exact h.symm
          · exact absurd h hv0
        rw [this]; norm_num)
  exact ⟨qr, eigh, X, h1, h2⟩

example : ∃ (lstsq : LinSolve ℝ) (X : Matrix (Fin 2) (Fin 1) ℝ), minNormSolve lstsq !![2, 0; 0, 0] (-1) !![6; 1] 1 = .ok (X.map Ext.fin) ∧ (!![2, 0; 0, 0] + |(-1 : ℝ)| • (1 : Matrix (Fin 2) (Fin 2) ℝ)) * X = !![6; 1] := by
  obtain ⟨lstsq, h⟩ := exists_lstsq
  refine ⟨lstsq, C31_minimal_exact h _ _ _ _ ?_⟩
  rw [Matrix.det_fin_two]
  norm_num

end Coreax
