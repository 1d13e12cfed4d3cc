import Verif.Props.ThinningReduce
import Verif.Props.ThinningKey
import Verif.Props.ThinningCases
import Verif.Lemmas.Matern

/-!
# C50: the rate of kernel thinning to half the data, end to end
-/

set_option linter.unusedSectionVars false

universe w

namespace Coreax

open Spec MeasureTheory Halving

local notation "⟪" x ", " y "⟫" => inner ℝ x y

/-- The squared MMD between the first half and all points is a quarter of that between the two halves. -/
theorem mmdSq_half {X : Type*} {h : ℕ} [NeZero (2 * h)] (k : X → X → ℝ) (hk : IsPSD k) (x : Fin (2 * h) → X) (e : Fin h → Bool) :
    mmdSq k (fun t => x (pairAt t (e t))) (fun _ => 1) x (fun _ => 1)
      = 1 / 4 * mmdSq k (fun t => x (pairAt t (e t))) (fun _ => 1) (fun t => x (pairAt t (!e t))) (fun _ => 1) := by
  obtain ⟨H, _, _, φ, hφ⟩ := hk.exists_feature
  have hh : (h : ℝ) ≠ 0 := by exact_mod_cast (h_pos (h := h)).ne'
  rw [mmdSq_eq_norm φ hφ, mmdSq_eq_norm φ hφ]
  simp only [meanEmbedding, one_smul, Finset.sum_const, Finset.card_univ, Fintype.card_fin, nsmul_eq_mul, mul_one]
  have hsum : ∑ i, φ (x i) = ∑ i : Fin h, φ (x (pairAt i (e i))) + ∑ i : Fin h, φ (x (pairAt i (!e i))) := by
    rw [← Equiv.sum_comp pairEquiv, Fintype.sum_prod_type, ← Finset.sum_add_distrib]
    refine Finset.sum_congr rfl fun i _ => ?_
    rw [Fintype.sum_bool]
    cases e i
    · exact add_comm _ _
    · rfl
  rw [hsum]
  set P := ∑ i : Fin h, φ (x (pairAt i (e i)))
  set Q := ∑ i : Fin h, φ (x (pairAt i (!e i)))
  have : (h : ℝ)⁻¹ • P - ((2 * h : ℕ) : ℝ)⁻¹ • (P + Q) = (1 / 2 : ℝ) • ((h : ℝ)⁻¹ • P - (h : ℝ)⁻¹ • Q) := by
    push_cast
    rw [mul_inv, smul_add, smul_sub, smul_smul, smul_smul]
    have : (h : ℝ)⁻¹ = 2⁻¹ * (h : ℝ)⁻¹ + 1 / 2 * (h : ℝ)⁻¹ := by ring
    nth_rewrite 1 [this]
    rw [add_smul, show (1 / 2 : ℝ) = 2⁻¹ by norm_num]
    abel
  rw [this, norm_smul, mul_pow]
  norm_num

variable {X : Type w} [Zero X] {size : ℕ} [NeZero size] [NeZero (2 * size)]

/-- Kernel thinning to half of an equally weighted dataset, with the halving kernel equal to the target kernel (a positive
semi-definite kernel of constant diagonal): for independent uniform draws, the expected squared MMD between the coreset and
the data is at most the sum of the squared kernel distances of consecutive pairs, divided by `4 size²`.  (The baseline is
drawn from the same key, so it may depend on the draws.) -/
theorem C50_reduce_half (big : ℝ) (k : X → X → ℝ) (hk : IsPSD k) (c : ℝ)
    (choice : (Fin size → ℝ) → Choice (2 * size) size ℝ) (hc : ∀ u, ChoiceContract (choice u)) (ord : List (Fin (size + (size - size)))) (hord : ∀ t, t ∈ ord) (x : Fin (2 * size) → X)
    (hdiag : ∀ i j, k (x i) (x i) = k (x j) (x j))
    (hd : ∀ i : Fin size, 0 < k (x (pairAt i false)) (x (pairAt i false)) + k (x (pairAt i true)) (x (pairAt i true))
      - 2 * k (x (pairAt i false)) (x (pairAt i true))) :
    ∃ f : (Fin size → ℝ) → Fin size → Fin (2 * size), (∀ u, Function.Injective (f u) ∧
        ktReduce big k k (Ext.fin c) (drawSeq u) (choice u) ord 1 ⟨x, fun _ => 1⟩ = .ok ⟨fun t => ((f u t : ℕ) : ℤ), fun _ => 1⟩) ∧
      ∫ u, mmdSq k (fun t => x (f u t)) (fun _ => 1) x (fun _ => 1) ∂(uniformDraws size)
        ≤ (∑ i : Fin size, (k (x (pairAt i false)) (x (pairAt i false)) + k (x (pairAt i true)) (x (pairAt i true))
          - 2 * k (x (pairAt i false)) (x (pairAt i true)))) / (4 * (size : ℝ) ^ 2) := by
  have hbest := fun u : Fin size → ℝ => C20_reduce_best (n := 2 * size) (size := size) big k k hk.1 (Ext.fin c) (drawSeq u)
    (choice u) (hc u) ord hord 1 (by omega) ⟨x, fun _ => 1⟩ (fun _ => one_pos) hdiag
  choose f hinj hrun hcand _ using hbest
  refine ⟨f, fun u => ⟨hinj u, hrun u⟩, ?_⟩
  have hnn : ∀ {m n : ℕ} (a : Fin m → X) (b : Fin n → X), 0 ≤ mmdSq k a (fun _ => 1) b (fun _ => 1) := by
    intro m n a b
    obtain ⟨H, _, _, φ, hφ⟩ := hk.exists_feature
    rw [mmdSq_eq_norm φ hφ]
    positivity
  set half := fun u : Fin size → ℝ =>
    mmdSq k (fun t => x (gatherIdx (2 * size) ((ktHalf Real.sqrt k (Ext.fin c) (drawSeq u) x).1 t))) (fun _ => 1)
      (fun t => x (gatherIdx (2 * size) ((ktHalf Real.sqrt k (Ext.fin c) (drawSeq u) x).2 t))) (fun _ => 1) with hhalf
  have hle : ∀ u, mmdSq k (fun t => x (f u t)) (fun _ => 1) x (fun _ => 1) ≤ 1 / 4 * half u := by
    intro u
    have hx : (fun t : Fin (2 * ktRows size 0) => x (gatherIdx (2 * size) ((t : ℕ) : ℤ))) = x := by
      funext t
      exact congrArg x (gatherIdx_coe (n := 2 * size) t)
    have hmem : (ktHalf Real.sqrt k (Ext.fin c) (drawSeq u) x).1
        ∈ ktPartition (size := size) Real.sqrt k (Ext.fin c) (drawSeq u) x 1 := by
      change _ ∈ [_] ++ [_]
      refine List.mem_append_left _ (List.mem_singleton.2 ?_)
      exact congrArg (fun z => (ktHalf (h := size) Real.sqrt k (Ext.fin c) (drawSeq u) z).1) hx.symm
    have h1 := hcand u _ hmem
    rw [max_eq_right (hnn _ _), max_eq_right (hnn _ _)] at h1
    refine h1.trans (le_of_eq ?_)
    obtain ⟨e, σ, -, hr, -⟩ := ktHalf_run Real.sqrt k (Ext.fin c) (drawSeq u) x
    simp only [hhalf, hr, gatherIdx_coe]
    exact mmdSq_half k hk x e
  -- the bound is integrable because it takes finitely many values
  obtain ⟨H, _, _, φ, hφ⟩ := hk.exists_feature
  have hd' : ∀ i : Fin size, φ (x (pairAt i false)) ≠ φ (x (pairAt i true)) := by
    intro i heq
    have h1 := hd i
    rw [dist_eq φ hφ, diff_fin, heq, sub_self, norm_zero] at h1
    norm_num at h1
  obtain ⟨dec, hr, hdec⟩ := dec_exists φ hφ x c hd'
  have hmeas := Walk.dec_measurable _ _ dec hdec
  have hint : Integrable (fun u => 1 / 4 * half u) (uniformDraws size) := by
    have : (fun u => 1 / 4 * half u) = (fun ε : Fin size → Bool => 1 / 4 * mmdSq k (fun t => x (pairAt t (ε t))) (fun _ => 1)
        (fun t => x (pairAt t (!ε t))) (fun _ => 1)) ∘ dec := by
      funext u
      simp only [hhalf, hr u, gatherIdx_coe, Function.comp]
    rw [this]
    have : IsProbabilityMeasure ((uniformDraws size).map dec) := Measure.isProbabilityMeasure_map hmeas.aemeasurable
    exact (Integrable.of_finite).comp_measurable hmeas
  have hmono := integral_mono_of_nonneg (μ := uniformDraws size) (Filter.Eventually.of_forall fun u => hnn _ _) hint
    (Filter.Eventually.of_forall hle)
  refine hmono.trans ?_
  rw [integral_const_mul]
  have := C50_expected_balance k hk c x hd
  have e1 : (∑ i : Fin size, (k (x (pairAt i false)) (x (pairAt i false)) + k (x (pairAt i true)) (x (pairAt i true))
          - 2 * k (x (pairAt i false)) (x (pairAt i true)))) / (4 * (size : ℝ) ^ 2)
      = 1 / 4 * ((∑ i : Fin size, (k (x (pairAt i false)) (x (pairAt i false)) + k (x (pairAt i true)) (x (pairAt i true))
          - 2 * k (x (pairAt i false)) (x (pairAt i true)))) / (size : ℝ) ^ 2) := by
    have : (size : ℝ) ≠ 0 := by exact_mod_cast NeZero.ne size
    field_simp
  rw [e1]
  exact mul_le_mul_of_nonneg_left this (by norm_num)

/-- The hypotheses are met by the kernel `cos (a - b)` on the numbers `0, 1, …, 7`. -/
example (c : ℝ) : ∃ f : (Fin 4 → ℝ) → Fin 4 → Fin (2 * 4), (∀ u, Function.Injective (f u) ∧
      ktReduce (n := 2 * 4) (size := 4) 1000 (fun a b : ℝ => Real.cos (a - b)) (fun a b : ℝ => Real.cos (a - b)) (Ext.fin c) (drawSeq u) firstChoice
        (List.finRange _) 1 ⟨fun i => ((i : ℕ) : ℝ), fun _ => 1⟩ = .ok ⟨fun t => ((f u t : ℕ) : ℤ), fun _ => 1⟩) ∧
    ∫ u, mmdSq (fun a b : ℝ => Real.cos (a - b)) (fun t => ((f u t : ℕ) : ℝ)) (fun _ => 1) (fun i : Fin (2 * 4) => ((i : ℕ) : ℝ))
      (fun _ => 1) ∂(uniformDraws 4) ≤ (2 - 2 * Real.cos 1) / 16 := by
  have hdist : ∀ i : Fin 4, Real.cos ((((pairAt i false : Fin (2 * 4)) : ℕ) : ℝ) - ((pairAt i false : Fin (2 * 4)) : ℕ))
      + Real.cos ((((pairAt i true : Fin (2 * 4)) : ℕ) : ℝ) - ((pairAt i true : Fin (2 * 4)) : ℕ))
      - 2 * Real.cos ((((pairAt i false : Fin (2 * 4)) : ℕ) : ℝ) - ((pairAt i true : Fin (2 * 4)) : ℕ)) = 2 - 2 * Real.cos 1 := by
    intro i
    have : (((pairAt i false : Fin (2 * 4)) : ℕ) : ℝ) - ((pairAt i true : Fin (2 * 4)) : ℕ) = -1 := by
      simp only [pairAt, Bool.false_eq_true, if_false, if_true]
      push_cast
      ring
    rw [this, sub_self, sub_self, Real.cos_zero, Real.cos_neg]
    ring
  have hpos : 0 < 2 - 2 * Real.cos 1 := by
    have := Real.cos_lt_cos_of_nonneg_of_le_pi le_rfl (by linarith [Real.two_le_pi] : (1 : ℝ) ≤ Real.pi) one_pos
    rw [Real.cos_zero] at this
    linarith
  obtain ⟨f, h1, h2⟩ := C50_reduce_half (size := 4) 1000 (fun a b : ℝ => Real.cos (a - b)) (isPSD_cos fun a => a) c
    (fun _ => firstChoice) (fun _ => firstChoice_contract) (List.finRange _) (fun t => List.mem_finRange t)
    (fun i => ((i : ℕ) : ℝ)) (fun i j => by simp) (fun i => by rw [hdist]; exact hpos)
  refine ⟨f, h1, h2.trans (le_of_eq ?_)⟩
  simp only [hdist]
  norm_num
  ring

end Coreax
