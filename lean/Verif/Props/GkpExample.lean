import Verif.Model.Examples
import Verif.Props.GKPLoss
import Verif.Props.Kernel
import Mathlib.Tactic.FinCases

/-!
# C77: the worked example of greedy kernel points
-/

namespace Coreax

open Matrix Spec Ext

/-- The Gram matrix stated in the documentation of the example. -/
def Spec.docGram : Fin 3 → Fin 3 → ℝ := ![![1, 0, 2], ![0, 1, 1], ![2, 1, 5]]

namespace GkpExample

theorem psd : IsPSD (KExpr.linear 1 0 : KExpr 2).sem.compute :=
  C08_psd (.linear 1 0) (by norm_num [KExpr.check, checkPos, checkNonneg, checkIntGe, bind, Except.bind]) trivial

theorem gram : (fun i j => (KExpr.linear 1 0 : KExpr 2).sem.compute (gkpExampleX i) (gkpExampleX j)) = docGram := by
  funext i j
  fin_cases i <;> fin_cases j <;> simp [KExpr.sem, linearSem, gkpExampleX, docGram, vdot, Fin.sum_univ_two] <;> norm_num

end GkpExample

/-- The documentation: with zero regularisation the losses of the candidates are 26, 16 and 4 in the first iteration, and 16
and 4 in the second. -/
theorem C77_documented :
    (fun i j => (KExpr.linear 1 0 : KExpr 2).sem.compute (gkpExampleX i) (gkpExampleX j)) = docGram ∧
    (∀ (s : Fin 3) (a : Fin 1 → ℝ), IsRidgeFit docGram gkpExampleY 0 ![some s] a →
      ridgeError docGram gkpExampleY ![some s] a id = (![26, 16, 4] : Fin 3 → ℝ) s) ∧
    (∀ a : Fin 2 → ℝ, IsRidgeFit docGram gkpExampleY 0 ![some 2, some 0] a →
      ridgeError docGram gkpExampleY ![some 2, some 0] a id = 16) ∧
    ∀ a : Fin 2 → ℝ, IsRidgeFit docGram gkpExampleY 0 ![some 2, some 1] a →
      ridgeError docGram gkpExampleY ![some 2, some 1] a id = 4 := by
  refine ⟨GkpExample.gram, fun s a h => ?_, fun a h => ?_, fun a h => ?_⟩
  · have h0 := h 0 s rfl
    fin_cases s <;> simp [docGram, gkpExampleY] at h0
    · simp [ridgeError, docGram, gkpExampleY, Fin.sum_univ_three, h0]; norm_num
    · simp [ridgeError, docGram, gkpExampleY, Fin.sum_univ_three, h0]; norm_num
    · simp [ridgeError, docGram, gkpExampleY, Fin.sum_univ_three, h0]; norm_num
  · have h0 := h 0 2 rfl
    have h1 := h 1 0 rfl
    simp [docGram, gkpExampleY, Fin.sum_univ_two] at h0 h1
    have e0 : a 0 = 5 := by linarith
    have e1 : a 1 = -10 := by linarith
    simp [ridgeError, docGram, gkpExampleY, Fin.sum_univ_three, Fin.sum_univ_two, e0, e1]; norm_num
  · have h0 := h 0 2 rfl
    have h1 := h 1 1 rfl
    simp [docGram, gkpExampleY, Fin.sum_univ_two] at h0 h1
    have e0 : a 0 = 1 := by linarith
    have e1 : a 1 = 0 := by linarith
    simp [ridgeError, docGram, gkpExampleY, Fin.sum_univ_three, Fin.sum_univ_two, e0, e1]; norm_num

example := (C77_documented.2.1 2 ![1] fun t s h => by
  fin_cases t
  simp only [Fin.zero_eta, cons_val_zero, Option.some.injEq] at h
  subst h
  simp [docGram, gkpExampleY])

namespace GkpExample

/-- Ridge regression on one point. -/
theorem fit_one {lam : ℝ} (hl : 0 < lam) (s : Fin 3) {a : Fin 2 → ℝ}
    (h : IsRidgeFit docGram gkpExampleY lam ![some s, none] a) : a 0 = gkpExampleY s / (docGram s s + lam) := by
  have h0 := h 0 s rfl
  simp [Fin.sum_univ_two] at h0
  have : 0 < docGram s s + lam := by
    fin_cases s <;> simp [docGram] <;> linarith
  rw [eq_div_iff this.ne']
  linarith

theorem error_one (s : Fin 3) (a : Fin 2 → ℝ) : ridgeError docGram gkpExampleY ![some s, none] a id =
    ∑ j, (docGram s j * a 0 - gkpExampleY j) ^ 2 := by
  simp [ridgeError, Fin.sum_univ_two]

theorem first {lam : ℝ} (hl : 0 < lam) (hl' : lam ≤ 1 / 20) {s : Fin 3} (hs : s ≠ 2) {a a' : Fin 2 → ℝ}
    (h : IsRidgeFit docGram gkpExampleY lam ![some 2, none] a) (h' : IsRidgeFit docGram gkpExampleY lam ![some s, none] a') :
    ridgeError docGram gkpExampleY ![some 2, none] a id < ridgeError docGram gkpExampleY ![some s, none] a' id := by
  rw [error_one, error_one, fit_one hl 2 h, fit_one hl s h']
  have h5 : (0 : ℝ) < 5 + lam := by linarith
  set b := 5 / (5 + lam) with hb
  have hb1 : b ≤ 1 := by rw [hb, div_le_one h5]; linarith
  have hb0 : 99 / 100 ≤ b := by rw [hb, le_div_iff₀ h5]; linarith
  have e2 : ∑ j, (docGram 2 j * (gkpExampleY 2 / (docGram 2 2 + lam)) - gkpExampleY j) ^ 2 =
      (2 * b) ^ 2 + (b - 1) ^ 2 + (5 * b - 5) ^ 2 := by
    simp [Fin.sum_univ_three, docGram, gkpExampleY, hb]
  rw [e2]
  have hsmall : (2 * b) ^ 2 + (b - 1) ^ 2 + (5 * b - 5) ^ 2 < 5 := by nlinarith
  refine hsmall.trans_le ?_
  have h1 : (0 : ℝ) < 1 + lam := by linarith
  have hc : 0 < 1 / (1 + lam) := by positivity
  have hc1 : 1 / (1 + lam) ≤ 1 := by rw [div_le_one h1]; linarith
  fin_cases s
  · simp [Fin.sum_univ_three, docGram, gkpExampleY]
    norm_num
  · simp [Fin.sum_univ_three, docGram, gkpExampleY]
    rw [← one_div]
    nlinarith
  · exact absurd rfl hs

theorem bounds {p q r t : ℝ} (h0 : 0 ≤ p) (h1 : p ≤ 1) (h2 : 97 / 100 ≤ p + q) (h3 : p + q ≤ 1) (h4 : 49 / 10 ≤ 5 * p + q)
    (h5 : 5 * p + q ≤ 5) (h6 : 4 ≤ r) :
    (2 * p) ^ 2 + (p + q - 1) ^ 2 + (5 * p + q - 5) ^ 2 < (2 * r + t) ^ 2 + (r - 1) ^ 2 + (5 * r + 2 * t - 5) ^ 2 := by
  have u1 : (2 * p) ^ 2 ≤ 4 := by nlinarith
  have u2 : (p + q - 1) ^ 2 ≤ 1 := (sq_le_one_iff_abs_le_one _).2 (abs_le.2 ⟨by linarith, by linarith⟩)
  have u3 : (5 * p + q - 5) ^ 2 ≤ 1 := (sq_le_one_iff_abs_le_one _).2 (abs_le.2 ⟨by linarith, by linarith⟩)
  have u4 : 9 ≤ (r - 1) ^ 2 := by nlinarith
  have u5 := sq_nonneg (2 * r + t)
  have u6 := sq_nonneg (5 * r + 2 * t - 5)
  linarith

theorem second {lam : ℝ} (hl : 0 < lam) (hl' : lam ≤ 1 / 20) {a a' : Fin 2 → ℝ}
    (h : IsRidgeFit docGram gkpExampleY lam ![some 2, some 1] a) (h' : IsRidgeFit docGram gkpExampleY lam ![some 2, some 0] a') :
    ridgeError docGram gkpExampleY ![some 2, some 1] a id < ridgeError docGram gkpExampleY ![some 2, some 0] a' id := by
  have h0 := h 0 2 rfl
  have h1 := h 1 1 rfl
  have g0 := h' 0 2 rfl
  have g1 := h' 1 0 rfl
  simp [docGram, gkpExampleY, Fin.sum_univ_two] at h0 h1 g0 g1
  have hd : (0 : ℝ) < 4 + 6 * lam + lam ^ 2 := by positivity
  have hd' : (0 : ℝ) < 1 + 6 * lam + lam ^ 2 := by positivity
  have a0 : a 0 = (4 + 5 * lam) / (4 + 6 * lam + lam ^ 2) := by
    rw [eq_div_iff hd.ne']; linear_combination (1 + lam) * h0 - h1
  have a1 : a 1 = lam / (4 + 6 * lam + lam ^ 2) := by
    rw [eq_div_iff hd.ne']; linear_combination (5 + lam) * h1 - h0
  have b0 : a' 0 = 5 * (1 + lam) / (1 + 6 * lam + lam ^ 2) := by
    rw [eq_div_iff hd'.ne']; linear_combination (1 + lam) * g0 - 2 * g1
  have hb : 4 ≤ a' 0 := by
    rw [b0, le_div_iff₀ hd']; nlinarith
  have ha0 : a 0 ≤ 1 := by rw [a0, div_le_one hd]; nlinarith
  have ha0' : 0 ≤ a 0 := by rw [a0]; positivity
  have ha1' : 0 ≤ a 1 := by rw [a1]; positivity
  have ha01 : a 0 + a 1 ≤ 1 := by rw [a0, a1, ← add_div, div_le_one hd]; nlinarith
  have hz : 49 / 10 ≤ 5 * a 0 + a 1 := by
    rw [a0, a1, mul_div_assoc', ← add_div, le_div_iff₀ hd]; nlinarith
  have hz' : 5 * a 0 + a 1 ≤ 5 := by linarith
  have hl1 : 97 / 100 ≤ a 0 + a 1 := by linarith
  have e1 : ridgeError docGram gkpExampleY ![some 2, some 1] a id =
      (2 * a 0) ^ 2 + (a 0 + a 1 - 1) ^ 2 + (5 * a 0 + a 1 - 5) ^ 2 := by
    simp [ridgeError, docGram, gkpExampleY, Fin.sum_univ_three, Fin.sum_univ_two]
  have e2 : ridgeError docGram gkpExampleY ![some 2, some 0] a' id =
      (2 * a' 0 + a' 1) ^ 2 + (a' 0 - 1) ^ 2 + (5 * a' 0 + 2 * a' 1 - 5) ^ 2 := by
    simp [ridgeError, docGram, gkpExampleY, Fin.sum_univ_three, Fin.sum_univ_two]
  rw [e1, e2]
  exact bounds ha0' ha0 hl1 ha01 hz hz' hb

theorem replace_zero (F : Fin 2 → Fin 3) (j : Fin 3) : replaceAt F (fun _ => none) 0 j = ![some j, none] := by
  funext t
  fin_cases t <;> simp [replaceAt]

theorem replace_one (F : Fin 2 → Fin 3) (j : Fin 3) : replaceAt F (fun _ => none) 1 j = ![some (F 0), some j] := by
  funext t
  fin_cases t <;> simp [replaceAt]

end GkpExample

/-- The example returns what its documentation says, indices 2 and 1 in this order, whatever the key, for every exact
least-squares solver and every regularisation parameter up to `1/20` in size (`1e-6` is used). -/
theorem C77_result {solve : RlsSolver ℝ} (hs : ExactSolver solve) {reg : ℝ} (hreg : reg ≠ 0) (hreg' : |reg| ≤ 1 / 20)
    {permC permL : Fin 2 → Fin 3 → ℤ} (hC : PermContract permC) (hL : PermContract permL) :
    ∃ c G, gkpExample solve reg permC permL = .ok (c, G) ∧ c.data = ![2, 1] ∧ c.weights = ![1, 1] := by
  have hlam : 0 < |reg| := abs_pos.2 hreg
  have hok : ∃ c G, gkpExample solve reg permC permL = .ok (c, G) := by
    unfold gkpExample gkpReduce initialCoresubset
    rw [if_neg (by norm_num)]
    exact gkpRefine_ok hs.numeric _ _ _ _ _ _ _ _ _ _ _ _ (by norm_num) (by simp) (by simp)
  obtain ⟨c, G, hr⟩ := hok
  choose e hbij he using hL
  obtain ⟨F, hF, hmin⟩ := C18_optimal hs GkpExample.psd hreg hC (by simp) he (l := 3) le_rfl rfl hr
  refine ⟨c, G, hr, ?_⟩
  rw [GkpExample.gram] at hmin
  have hperm : ∀ (i : Fin 2) (S : Fin 2 → Option (Fin 3)) (a : Fin 2 → ℝ),
      ridgeError docGram gkpExampleY S a (fun t => e i (Fin.castLE le_rfl t)) = ridgeError docGram gkpExampleY S a id :=
    fun i S a => ridgeError_perm docGram gkpExampleY S a (hbij i)
  simp only [hperm] at hmin
  have hfit : ∀ S : Fin 2 → Option (Fin 3), ∃ a, IsRidgeFit docGram gkpExampleY |reg| S a := fun S => by
    have := (C18_error_defined GkpExample.psd gkpExampleX gkpExampleY hlam S (id : Fin 3 → Fin 3)).1
    rwa [GkpExample.gram] at this
  have hF0 : F 0 = 2 := by
    by_contra hne
    obtain ⟨a, ha⟩ := hfit ![some (F 0), none]
    obtain ⟨a', ha'⟩ := hfit ![some 2, none]
    have := (hmin 0).2 2 (fun _ t ht => absurd ht (by simp)) a a' (by rw [GkpExample.replace_zero]; exact ha)
      (by rw [GkpExample.replace_zero]; exact ha')
    rw [GkpExample.replace_zero, GkpExample.replace_zero] at this
    exact absurd this (not_le.2 (GkpExample.first hlam hreg' hne ha' ha))
  have hF1 : F 1 = 1 := by
    by_contra hne
    have h2 : F 1 ≠ 2 := fun h => (hmin 1).1 trivial 0 (by decide) (hF0.trans h.symm)
    have h0 : F 1 = 0 := by omega
    obtain ⟨a, ha⟩ := hfit ![some 2, some 0]
    obtain ⟨a', ha'⟩ := hfit ![some 2, some 1]
    have := (hmin 1).2 1 (fun _ t ht => by
      obtain rfl : t = 0 := by omega
      rw [hF0]; decide) a a' (by rw [GkpExample.replace_one, hF0, h0]; exact ha)
      (by rw [GkpExample.replace_one, hF0]; exact ha')
    rw [GkpExample.replace_one, GkpExample.replace_one, hF0, h0] at this
    exact absurd this (not_le.2 (GkpExample.second hlam hreg' ha' ha))
  obtain ⟨-, -, -, -, -, -, -, hw, -⟩ : ∃ (p : ℕ) (_ : NeZero p) (batches : Fin 2 → Fin p → ℤ)
      (lossBatches : Fin 2 → Fin (resolveBatch 3 none).toNat → ℤ), _ := by
    have hr' := hr
    unfold gkpExample gkpReduce initialCoresubset at hr'
    rw [if_neg (by norm_num)] at hr'
    exact gkpRefine_run hr'
  refine ⟨?_, ?_⟩
  · funext t
    fin_cases t
    · simpa [hF0] using hF 0
    · simpa [hF1] using hF 1
  · funext t
    fin_cases t <;> exact hw _

/-- The default solver, the default parameter and two permutations. -/
example : ∃ (lstsq : LinSolve ℝ) (c : Data 2 ℤ ℝ) (G : Fin 4 → Fin 4 → ℝ),
    gkpExample (minNormSolve lstsq) (1 / 10 ^ 6) (fun _ t => (t : ℤ)) (fun _ t => (t.rev : ℤ)) = .ok (c, G) ∧ c.data = ![2, 1] := by
  obtain ⟨lstsq, h⟩ := exists_lstsq
  obtain ⟨c, G, h1, h2, -⟩ := C77_result (exactSolver_minNorm h) (reg := 1 / 10 ^ 6) (by norm_num)
    (by rw [abs_of_pos (by norm_num)]; norm_num) (permC := fun _ t => (t : ℤ)) (permL := fun _ t => (t.rev : ℤ))
    (fun _ => ⟨id, Function.bijective_id, fun _ => rfl⟩) (fun _ => ⟨Fin.rev, Fin.rev_bijective, fun _ => rfl⟩)
  exact ⟨lstsq, c, G, h1, h2⟩

end Coreax
