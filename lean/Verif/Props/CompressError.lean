import Verif.Props.ThinningRateReduce

/-!
# C70: the error of Compress++

How far the mean embedding of the output of Compress++ can be from that of the rows that it was given, in every execution;
and what sharing one random key between the four quarters does to that error.
-/

set_option linter.unusedSectionVars false

namespace Coreax

open Spec

section
variable {X : Type*}

/-- The maximum mean discrepancy of two unweighted samples. -/
noncomputable def Spec.mmdOf (k : X → X → ℝ) {m n : ℕ} (x : Fin m → X) (y : Fin n → X) : ℝ :=
  √(mmdSq k x (fun _ => 1) y (fun _ => 1))

theorem mmdOf_eq_norm {H : Type*} [NormedAddCommGroup H] [InnerProductSpace ℝ H] (φ : X → H) {k : X → X → ℝ}
    (hφ : ∀ a b, k a b = inner ℝ (φ a) (φ b)) {m n : ℕ} (x : Fin m → X) (y : Fin n → X) :
    mmdOf k x y = ‖meanEmbedding φ x (fun _ => 1) - meanEmbedding φ y (fun _ => 1)‖ := by
  rw [mmdOf, mmdSq_eq_norm φ hφ, Real.sqrt_sq (norm_nonneg _)]

theorem meanEmbedding_quarters {H : Type*} [NormedAddCommGroup H] [InnerProductSpace ℝ H] (φ : X → H) {m : ℕ}
    (x : Fin (4 * m) → X) :
    meanEmbedding φ x (fun _ => 1)
      = (1 / 4 : ℝ) • ∑ q : Fin 4, meanEmbedding φ (fun t : Fin m => x (finProdFinEquiv (q, t))) (fun _ => 1) := by
  simp only [meanEmbedding, one_smul, Finset.sum_const, Finset.card_univ, Fintype.card_fin, nsmul_eq_mul, mul_one]
  rw [← Finset.smul_sum, smul_smul, ← Equiv.sum_comp finProdFinEquiv, Fintype.sum_prod_type]
  congr 1
  push_cast
  rw [mul_inv]
  norm_num

theorem mmdOf_quarters {k : X → X → ℝ} (hk : IsPSD k) {m s : ℕ} (x : Fin (4 * m) → X) (y : Fin (4 * s) → X) (B : ℝ)
    (h : ∀ q : Fin 4, mmdOf k (fun t : Fin m => x (finProdFinEquiv (q, t))) (fun t : Fin s => y (finProdFinEquiv (q, t))) ≤ B) :
    mmdOf k x y ≤ B := by
  obtain ⟨H, _, _, φ, hφ⟩ := hk.exists_feature
  rw [mmdOf_eq_norm φ hφ, meanEmbedding_quarters φ x, meanEmbedding_quarters φ y, ← smul_sub, ← Finset.sum_sub_distrib,
    norm_smul]
  have h1 : ‖∑ q : Fin 4, (meanEmbedding φ (fun t : Fin m => x (finProdFinEquiv (q, t))) (fun _ => 1)
      - meanEmbedding φ (fun t : Fin s => y (finProdFinEquiv (q, t))) (fun _ => 1))‖ ≤ 4 * B := by
    refine (norm_sum_le _ _).trans ?_
    calc _ ≤ ∑ _q : Fin 4, B := Finset.sum_le_sum fun q _ => by
            have := h q
            rwa [mmdOf_eq_norm φ hφ] at this
      _ = 4 * B := by simp
  have h2 : ‖(1 / 4 : ℝ)‖ = 1 / 4 := by norm_num
  rw [h2]
  linarith

theorem mmdOf_triangle {k : X → X → ℝ} (hk : IsPSD k) {m n l : ℕ} (x : Fin m → X) (y : Fin n → X) (z : Fin l → X) :
    mmdOf k x z ≤ mmdOf k x y + mmdOf k y z := by
  obtain ⟨H, _, _, φ, hφ⟩ := hk.exists_feature
  rw [mmdOf_eq_norm φ hφ, mmdOf_eq_norm φ hφ, mmdOf_eq_norm φ hφ]
  exact norm_sub_le_norm_sub_add_norm_sub _ _ _

variable [Zero X] {n : ℕ} [NeZero n]

/-- Every thinning of `l` distinct rows to `size` of them, with these parameters on this dataset, has MMD at most `B` to the
rows that it was given. -/
def ThinWithin (P : KTParams X) (dataset : Data n X ℝ) (l size : ℕ) [NeZero l] [NeZero size] (B : ℝ) : Prop :=
  ∀ (f : Fin l → Fin n) (r : Fin size → Fin n), Function.Injective f →
    cppThin P dataset size (fun t => ((f t : ℕ) : ℤ)) = .ok (fun t => ((r t : ℕ) : ℤ)) →
      mmdOf P.k (fun t => dataset.data (r t)) (fun t => dataset.data (f t)) ≤ B

theorem cppCompress_error (P : KTParams X) (hP : KTContract P) (hk : IsPSD P.k) (dataset : Data n X ℝ)
    (hw : ∀ i, 0 < dataset.weights i) (g : ℕ) (B : ℕ → ℝ) : ∀ (j : ℕ)
      (_ : ∀ i < j, ThinWithin P dataset (4 * cppSize g i) (2 * cppSize g i) (B i))
      (f : Fin (cppRows g j) → Fin n), Function.Injective f →
      ∃ r : Fin (cppSize g j) → Fin n, Function.Injective r ∧ (∀ t, ∃ s, r t = f s) ∧
        cppCompress P dataset g j (fun t => ((f t : ℕ) : ℤ)) = .ok (fun t => ((r t : ℕ) : ℤ)) ∧
        mmdOf P.k (fun t => dataset.data (r t)) (fun t => dataset.data (f t)) ≤ ∑ i ∈ Finset.range j, B i
  | 0, _, f, hf => ⟨f, hf, fun t => ⟨t, rfl⟩, rfl, by
      obtain ⟨H, _, _, φ, hφ⟩ := hk.exists_feature
      rw [mmdOf_eq_norm φ hφ]
      exact le_of_eq (norm_sub_eq_zero_iff.2 rfl)⟩
  | j + 1, hB, f, hf => by
    have hsub : ∀ q : Fin 4, Function.Injective (fun t : Fin (cppRows g j) => f (finProdFinEquiv (q, t))) := by
      intro q a b hab
      have := finProdFinEquiv.injective (hf hab)
      exact (Prod.ext_iff.1 this).2
    have ih := fun q => cppCompress_error P hP hk dataset hw g B j (fun i hi => hB i (hi.trans (Nat.lt_succ_self j)))
      (fun t => f (finProdFinEquiv (q, t))) (hsub q)
    choose r hinj hmem hok herr using ih
    have hcat : Function.Injective (fun p : Fin (4 * cppSize g j) => r (finProdFinEquiv.symm p).1 (finProdFinEquiv.symm p).2) := by
      intro a b hab
      simp only at hab
      obtain ⟨s, hs⟩ := hmem (finProdFinEquiv.symm a).1 (finProdFinEquiv.symm a).2
      obtain ⟨s', hs'⟩ := hmem (finProdFinEquiv.symm b).1 (finProdFinEquiv.symm b).2
      have heq : (finProdFinEquiv ((finProdFinEquiv.symm a).1, s) : Fin (4 * cppRows g j))
          = finProdFinEquiv ((finProdFinEquiv.symm b).1, s') := hf (by rw [← hs, ← hs', hab])
      have h1 := (Prod.ext_iff.1 (finProdFinEquiv.injective heq)).1
      simp only at h1
      rw [← h1] at hab
      have h2 := hinj _ hab
      exact finProdFinEquiv.symm.injective (Prod.ext h1 h2)
    obtain ⟨g', hgi, hgm, hgok⟩ := cppThin_valid P hP dataset hw (2 * cppSize g j) (l := 4 * cppSize g j) (by omega) _ hcat
    have hrun : cppCompress P dataset g (j + 1) (fun t => ((f t : ℕ) : ℤ)) = .ok (fun t => ((g' t : ℕ) : ℤ)) := by
      rw [cppCompress]
      simp only [hok]
      refine Eq.trans (congrArg (cppThin P dataset (2 * cppSize g j)) ?_) hgok
      funext p
      generalize (finProdFinEquiv.symm p) = qt
      obtain ⟨q, t⟩ := qt
      fin_cases q <;> rfl
    refine ⟨g', hgi, fun t => ?_, hrun, ?_⟩
    · obtain ⟨s, hs⟩ := hgm t
      obtain ⟨s', hs'⟩ := hmem (finProdFinEquiv.symm s).1 (finProdFinEquiv.symm s).2
      exact ⟨finProdFinEquiv ((finProdFinEquiv.symm s).1, s'), hs.trans hs'⟩
    · have h1 := hB j (Nat.lt_succ_self j) _ g' hcat hgok
      have h2 := mmdOf_quarters hk
        (fun p : Fin (4 * cppSize g j) => dataset.data (r (finProdFinEquiv.symm p).1 (finProdFinEquiv.symm p).2))
        (fun p : Fin (4 * cppRows g j) => dataset.data (f p)) (∑ i ∈ Finset.range j, B i) (fun q => by
          simpa using herr q)
      refine le_trans ?_ (le_of_eq ((add_comm _ _).trans (Finset.sum_range_succ B j).symm))
      exact (mmdOf_triangle hk _ _ _).trans (add_le_add h1 h2)

/-- The errors of Compress++ add up along the levels and not over the calls: if every halving at level `i` stays within
`B i` and the last thinning within `T`, the output is within `B 0 + … + B (p - g - 1) + T` of the clipped rows, although
there are `4 ^ (p - g - 1 - i)` halvings at level `i`. -/
theorem C70_levels {size : ℕ} [NeZero size] (P : KTParams X) (hP : KTContract P) (hk : IsPSD P.k) (g : ℕ)
    (clip : ∀ l : ℕ, Choice n l ℝ) (hclip : ∀ l, ChoiceContract (clip l)) (dataset : Data n X ℝ)
    (hw : ∀ i, 0 < dataset.weights i) (hs : size ≤ n) (p : ℕ) (hp : 4 ^ p ≤ n ∧ n < 4 ^ (p + 1)) (hgp : g ≤ p)
    (hsg : size ≤ 2 ^ g * 2 ^ p) (B : ℕ → ℝ) (T : ℝ)
    (hB : ∀ i < p - g, ThinWithin P dataset (4 * cppSize g i) (2 * cppSize g i) (B i))
    (hT : ThinWithin P dataset (cppSize g (p - g)) size T) :
    ∃ (c : Fin (cppRows g (p - g)) → Fin n) (f : Fin size → Fin n), Function.Injective c ∧
      (∀ t, clip _ none false t = ((c t : ℕ) : ℤ)) ∧ Function.Injective f ∧ (∀ t, ∃ s, f t = c s) ∧
      compressPlusPlus (size := size) P g clip dataset = .ok (fun t => ((f t : ℕ) : ℤ)) ∧
      mmdOf P.k (fun t => dataset.data (f t)) (fun t => dataset.data (c t)) ≤ ∑ i ∈ Finset.range (p - g), B i + T ∧
      mmdOf P.k (fun t => dataset.data (f t)) dataset.data
        ≤ ∑ i ∈ Finset.range (p - g), B i + T + mmdOf P.k (fun t => dataset.data (c t)) dataset.data := by
  have hlog : Nat.log 4 n = p := (Nat.log_eq_iff (Or.inr ⟨by norm_num, NeZero.ne n⟩)).2 hp
  subst hlog
  set p := Nat.log 4 n with hpdef
  have hrows : cppRows g (p - g) ≤ n := by
    rw [cppRows_eq, Nat.add_sub_cancel' hgp]; exact hp.1
  have hcf : choiceFails n (cppRows g (p - g)) false = false := by
    have := NeZero.pos n
    simp [choiceFails]; omega
  choose c hc using (hclip (cppRows g (p - g))).range none false hcf
  have hci : Function.Injective c := fun a b hab => (hclip _).distinct none hcf (by rw [hc, hc, hab])
  obtain ⟨r, hri, hrm, hr, herr⟩ := cppCompress_error P hP hk dataset hw g B (p - g) hB c hci
  have hsz : size ≤ cppSize g (p - g) := by
    rw [cppSize_eq]
    rw [← pow_add] at hsg
    rwa [show 2 * g + (p - g) = g + p by omega]
  obtain ⟨f, hfi, hfm, hf⟩ := cppThin_valid P hP dataset hw size hsz r hri
  have hrun : compressPlusPlus (size := size) P g clip dataset = .ok (fun t => ((f t : ℕ) : ℤ)) := by
    unfold compressPlusPlus compressPlusPlusAt
    rw [if_neg (by omega)]
    simp only
    rw [dif_pos (by omega)]
    simp only [Int.toNat_natCast]
    rw [if_pos hsg]
    have hcl : clip (cppRows g (p - g)) none false = fun t => ((c t : ℕ) : ℤ) := funext hc
    rw [hcl, hr]
    exact hf
  have hT' := hT r f hri hf
  have hsum : mmdOf P.k (fun t => dataset.data (f t)) (fun t => dataset.data (c t))
      ≤ ∑ i ∈ Finset.range (p - g), B i + T := by
    have := mmdOf_triangle hk (fun t => dataset.data (f t)) (fun t => dataset.data (r t)) (fun t => dataset.data (c t))
    linarith
  refine ⟨c, f, hci, hc, hfi, fun t => ?_, hrun, hsum, ?_⟩
  · obtain ⟨s, hs⟩ := hfm t
    obtain ⟨s', hs'⟩ := hrm s
    exact ⟨s', hs.trans hs'⟩
  · have := mmdOf_triangle hk (fun t => dataset.data (f t)) (fun t => dataset.data (c t)) dataset.data
    linarith

theorem mmdSq_const_weights {Y : Type*} (k : Y → Y → ℝ) {a b : ℕ} (x : Fin a → Y) (y : Fin b → Y) (w : ℝ) (hw : w ≠ 0)
    (v : Fin a → ℝ) : mmdSq k x v y (fun _ => w) = mmdSq k x v y (fun _ => 1) := by
  have h : ∀ F : Fin b → ℝ, avg (fun _ => w) F = avg (fun _ => (1 : ℝ)) F := by
    intro F
    simp only [avg, Finset.sum_const, Finset.card_univ, Fintype.card_fin, nsmul_eq_mul, mul_one, one_mul]
    rw [← Finset.mul_sum, mul_comm (b : ℝ) w, mul_div_mul_left _ _ hw]
  simp only [mmdSq, h]

/-- Halving never does worse than half the average distance between consecutive rows: with equal weights and a kernel of
constant diagonal, for all draws and every swap constant, one halving of `2 * size` rows has MMD at most
`(1 / (2 * size)) * ∑ ‖φ x_{2i} - φ x_{2i+1}‖` to the rows that it was given. -/
theorem C70_halving (P : KTParams X) (hP : KTContract P) (hk : IsPSD P.k) (dataset : Data n X ℝ) (w : ℝ) (hw0 : 0 < w)
    (hw : ∀ i, dataset.weights i = w) (hdiag : ∀ i j, P.k (dataset.data i) (dataset.data i) = P.k (dataset.data j) (dataset.data j))
    {size : ℕ} [NeZero size] [NeZero (2 * size)] (hhalf : P.halvings (2 * size) size = 1)
    (f : Fin (2 * size) → Fin n) (hf : Function.Injective f) :
    ∃ r : Fin size → Fin n, Function.Injective r ∧
      cppThin P dataset size (fun t => ((f t : ℕ) : ℤ)) = .ok (fun t => ((r t : ℕ) : ℤ)) ∧
      mmdOf P.k (fun t => dataset.data (r t)) (fun t => dataset.data (f t))
        ≤ (∑ i : Fin size, √(P.k (dataset.data (f (pairAt i false))) (dataset.data (f (pairAt i false)))
            + P.k (dataset.data (f (pairAt i true))) (dataset.data (f (pairAt i true)))
            - 2 * P.k (dataset.data (f (pairAt i false))) (dataset.data (f (pairAt i true))))) / (2 * size) := by
  have hitem : dataset.getItem (fun t => ((f t : ℕ) : ℤ)) = ⟨fun t => dataset.data (f t), fun _ => w⟩ := by
    simp only [Data.getItem, gatherIdx_coe, hw]
  obtain ⟨r, hri, hrun, hcand, -⟩ := C20_reduce_best P.big P.k P.sk hk.1 P.c P.u (P.choice (2 * size) size)
    (hP.choice _ _) (P.ord size) (hP.ord size) 1 (by omega) ⟨fun t => dataset.data (f t), fun _ => w⟩ (fun _ => hw0)
    (fun i j => hdiag _ _)
  refine ⟨fun t => f (r t), fun a b hab => hri (hf hab), ?_, ?_⟩
  · unfold cppThin
    rw [hhalf, hitem, hrun]
    simp
  set x : Fin (2 * size) → X := fun t => dataset.data (f t) with hx
  have hmem : (ktHalf Real.sqrt P.sk P.c P.u x).1 ∈ ktPartition (size := size) Real.sqrt P.sk P.c P.u x 1 := by
    have hx' : (fun t : Fin (2 * ktRows size 0) => x (gatherIdx (2 * size) ((t : ℕ) : ℤ))) = x := by
      funext t
      exact congrArg x (gatherIdx_coe (n := 2 * size) t)
    change _ ∈ [_] ++ [_]
    refine List.mem_append_left _ (List.mem_singleton.2 ?_)
    exact congrArg (fun z => (ktHalf (h := size) Real.sqrt P.sk P.c P.u z).1) hx'.symm
  have h1 := hcand _ hmem
  obtain ⟨e, σ, -, hr, -⟩ := ktHalf_run Real.sqrt P.sk P.c P.u x
  simp only [hr, gatherIdx_coe, mmdSq_const_weights _ _ _ _ hw0.ne'] at h1
  have hnn : ∀ {a b : ℕ} (y : Fin a → X) (z : Fin b → X), 0 ≤ mmdSq P.k y (fun _ => 1) z (fun _ => 1) := by
    intro a b y z
    obtain ⟨H, _, _, φ, hφ⟩ := hk.exists_feature
    rw [mmdSq_eq_norm φ hφ]
    positivity
  rw [max_eq_right (hnn _ _), max_eq_right (hnn _ _), mmdSq_half P.k hk x e] at h1
  have h2 : mmdOf P.k (fun t => x (r t)) x ≤ 1 / 2 * mmdOf P.k (fun t => x (pairAt t (e t))) (fun t => x (pairAt t (!e t))) := by
    rw [mmdOf, mmdOf]
    refine (Real.sqrt_le_sqrt h1).trans (le_of_eq ?_)
    rw [Real.sqrt_mul (by norm_num), show (1 / 4 : ℝ) = (1 / 2) ^ 2 by norm_num, Real.sqrt_sq (by norm_num)]
  refine h2.trans ?_
  obtain ⟨H, _, _, φ, hφ⟩ := hk.exists_feature
  have hd : ∀ a b : X, √(P.k a a + P.k b b - 2 * P.k a b) = ‖φ a - φ b‖ := by
    intro a b
    rw [hφ, hφ, hφ, real_inner_self_eq_norm_sq, real_inner_self_eq_norm_sq,
      show ‖φ a‖ ^ 2 + ‖φ b‖ ^ 2 - 2 * inner ℝ (φ a) (φ b) = ‖φ a - φ b‖ ^ 2 by rw [norm_sub_sq_real]; ring,
      Real.sqrt_sq (norm_nonneg _)]
  simp only [hd]
  rw [mmdOf_eq_norm φ hφ]
  simp only [meanEmbedding, one_smul, Finset.sum_const, Finset.card_univ, Fintype.card_fin, nsmul_eq_mul, mul_one]
  rw [← smul_sub, ← Finset.sum_sub_distrib, norm_smul, norm_inv, Real.norm_natCast]
  have h3 : ‖∑ i : Fin size, (φ (x (pairAt i (e i))) - φ (x (pairAt i (!e i))))‖
      ≤ ∑ i : Fin size, ‖φ (x (pairAt i false)) - φ (x (pairAt i true))‖ := by
    refine (norm_sum_le _ _).trans (le_of_eq (Finset.sum_congr rfl fun i _ => ?_))
    cases e i
    · rfl
    · exact norm_sub_rev _ _
  have hs : (0 : ℝ) < size := by exact_mod_cast NeZero.pos size
  calc 1 / 2 * ((size : ℝ)⁻¹ * ‖∑ i : Fin size, (φ (x (pairAt i (e i))) - φ (x (pairAt i (!e i))))‖)
      ≤ 1 / 2 * ((size : ℝ)⁻¹ * ∑ i : Fin size, ‖φ (x (pairAt i false)) - φ (x (pairAt i true))‖) := by gcongr
    _ = _ := by field_simp; rfl

/-- Each halving stays within half of the largest distance between rows, in every execution. -/
theorem C70_diameter (P : KTParams X) (hP : KTContract P) (hk : IsPSD P.k) (dataset : Data n X ℝ) (w : ℝ) (hw0 : 0 < w)
    (hw : ∀ i, dataset.weights i = w) (hdiag : ∀ i j, P.k (dataset.data i) (dataset.data i) = P.k (dataset.data j) (dataset.data j))
    (D : ℝ) (hD : ∀ i j, √(P.k (dataset.data i) (dataset.data i) + P.k (dataset.data j) (dataset.data j)
      - 2 * P.k (dataset.data i) (dataset.data j)) ≤ D)
    {l size : ℕ} [NeZero l] [NeZero size] (hl : l = 2 * size) (hhalf : P.halvings l size = 1) :
    ThinWithin P dataset l size (D / 2) := by
  subst hl
  intro f r hf hr
  obtain ⟨r', -, hr', hle⟩ := C70_halving P hP hk dataset w hw0 hw hdiag hhalf f hf
  rw [hr] at hr'
  have hrr : r = r' := by
    funext t
    have := congrFun (Except.ok.inj hr') t
    exact Fin.ext (by exact_mod_cast this)
  subst hrr
  refine hle.trans ?_
  have hs : (0 : ℝ) < size := by exact_mod_cast NeZero.pos size
  rw [div_le_div_iff₀ (by positivity) (by norm_num)]
  have := Finset.sum_le_sum fun (i : Fin size) (_ : i ∈ Finset.univ) => hD (f (pairAt i false)) (f (pairAt i true))
  rw [Finset.sum_const, Finset.card_univ, Fintype.card_fin, nsmul_eq_mul] at this
  linarith

/-- What `_compress` selects depends on the indices only through the rows that they name: all calls with the same rows
(values and weights) select the same positions, whatever the dataset and the indices, since all use the same key. -/
theorem C70_positions (P : KTParams X) (g : ℕ) : ∀ (j : ℕ) (x : Data (cppRows g j) X ℝ),
    ∃ R : Except Err (Fin (cppSize g j) → Fin (cppRows g j)), ∀ {N : ℕ} [NeZero N] (dataset : Data N X ℝ)
      (f : Fin (cppRows g j) → ℤ), dataset.getItem f = x →
      cppCompress P dataset g j f = match R with
        | .error e => .error e
        | .ok pos => .ok (fun t => f (pos t))
  | 0, x => ⟨.ok id, fun dataset f _ => rfl⟩
  | j + 1, x => by
    have ih := fun q : Fin 4 => C70_positions P g j
      ⟨fun t => x.data (finProdFinEquiv (q, t) : Fin (4 * cppRows g j)),
        fun t => x.weights (finProdFinEquiv (q, t) : Fin (4 * cppRows g j))⟩
    choose R hR using ih
    have hR' : ∀ {N : ℕ} [NeZero N] (dataset : Data N X ℝ) (f : Fin (cppRows g (j + 1)) → ℤ), dataset.getItem f = x →
        ∀ q : Fin 4, cppCompress P dataset g j (fun t => f (finProdFinEquiv (q, t) : Fin (4 * cppRows g j)))
          = match R q with
            | .error e => .error e
            | .ok pos => .ok (fun t => f (finProdFinEquiv (q, pos t) : Fin (4 * cppRows g j))) := by
      intro N _ dataset f hf q
      exact hR q dataset _ (by subst hf; rfl)
    by_cases hall : ∃ pos : Fin 4 → Fin (cppSize g j) → Fin (cppRows g j), ∀ q, R q = .ok (pos q)
    · obtain ⟨pos, hpos⟩ := hall
      let cat : Fin (4 * cppSize g j) → Fin (4 * cppRows g j) := fun p =>
        finProdFinEquiv ((finProdFinEquiv.symm p).1, pos (finProdFinEquiv.symm p).1 (finProdFinEquiv.symm p).2)
      have hcompress : ∀ {N : ℕ} [NeZero N] (dataset : Data N X ℝ) (f : Fin (cppRows g (j + 1)) → ℤ),
          dataset.getItem f = x → cppCompress P dataset g (j + 1) f
            = match ktReduce P.big P.k P.sk P.c P.u (P.choice (4 * cppSize g j) (2 * cppSize g j)) (P.ord (2 * cppSize g j))
                (P.halvings (4 * cppSize g j) (2 * cppSize g j))
                (⟨fun p => x.data (cat p), fun p => x.weights (cat p)⟩ : Data (4 * cppSize g j) X ℝ) with
              | .error e => .error e
              | .ok r => .ok (fun t => f (cat (gatherIdx _ (r.data t)))) := by
        intro N _ dataset f hf
        have h4 := hR' dataset f hf
        simp only [hpos] at h4
        have hcat : (fun p : Fin (4 * cppSize g j) =>
            (![fun t => f (finProdFinEquiv ((0 : Fin 4), pos 0 t) : Fin (4 * cppRows g j)),
              fun t => f (finProdFinEquiv ((1 : Fin 4), pos 1 t) : Fin (4 * cppRows g j)),
              fun t => f (finProdFinEquiv ((2 : Fin 4), pos 2 t) : Fin (4 * cppRows g j)),
              fun t => f (finProdFinEquiv ((3 : Fin 4), pos 3 t) : Fin (4 * cppRows g j))] :
                Fin 4 → Fin (cppSize g j) → ℤ) (finProdFinEquiv.symm p).1 (finProdFinEquiv.symm p).2)
              = fun p => f (cat p) := by
          funext p
          simp only [cat]
          generalize (finProdFinEquiv.symm p) = qt
          obtain ⟨q, t⟩ := qt
          fin_cases q <;> rfl
        rw [cppCompress]
        simp only [h4]
        have hitem : dataset.getItem (fun p => f (cat p)) = ⟨fun p => x.data (cat p), fun p => x.weights (cat p)⟩ := by
          subst hf; rfl
        rw [hcat, cppThin, hitem]
        cases ktReduce P.big P.k P.sk P.c P.u (P.choice (4 * cppSize g j) (2 * cppSize g j)) (P.ord (2 * cppSize g j))
          (P.halvings (4 * cppSize g j) (2 * cppSize g j))
          (⟨fun p => x.data (cat p), fun p => x.weights (cat p)⟩ : Data (4 * cppSize g j) X ℝ) <;> rfl
      rcases hred : ktReduce P.big P.k P.sk P.c P.u (P.choice (4 * cppSize g j) (2 * cppSize g j)) (P.ord (2 * cppSize g j))
        (P.halvings (4 * cppSize g j) (2 * cppSize g j))
        (⟨fun p => x.data (cat p), fun p => x.weights (cat p)⟩ : Data (4 * cppSize g j) X ℝ) with e | r
      · exact ⟨.error e, fun dataset f hf => by rw [hcompress dataset f hf, hred]⟩
      · exact ⟨.ok fun t => cat (gatherIdx _ (r.data t)), fun dataset f hf => by rw [hcompress dataset f hf, hred]⟩
    · -- one of the quarters fails: the first failure is passed on
      obtain ⟨e, he⟩ : ∃ e : Err, ∀ {N : ℕ} [NeZero N] (dataset : Data N X ℝ) (f : Fin (cppRows g (j + 1)) → ℤ),
          dataset.getItem f = x → cppCompress P dataset g (j + 1) f = .error e := by
        rcases h0 : R 0 with e | p0
        · refine ⟨e, fun dataset f hf => ?_⟩
          have := hR' dataset f hf 0
          rw [h0] at this
          rw [cppCompress]; simp only [this]
        rcases h1 : R 1 with e | p1
        · refine ⟨e, fun dataset f hf => ?_⟩
          have a0 := hR' dataset f hf 0
          have a1 := hR' dataset f hf 1
          rw [h0] at a0
          rw [h1] at a1
          rw [cppCompress]; simp only [a0, a1]
        rcases h2 : R 2 with e | p2
        · refine ⟨e, fun dataset f hf => ?_⟩
          have a0 := hR' dataset f hf 0
          have a1 := hR' dataset f hf 1
          have a2 := hR' dataset f hf 2
          rw [h0] at a0
          rw [h1] at a1
          rw [h2] at a2
          rw [cppCompress]; simp only [a0, a1, a2]
        rcases h3 : R 3 with e | p3
        · refine ⟨e, fun dataset f hf => ?_⟩
          have a0 := hR' dataset f hf 0
          have a1 := hR' dataset f hf 1
          have a2 := hR' dataset f hf 2
          have a3 := hR' dataset f hf 3
          rw [h0] at a0
          rw [h1] at a1
          rw [h2] at a2
          rw [h3] at a3
          rw [cppCompress]; simp only [a0, a1, a2, a3]
        exact absurd ⟨![p0, p1, p2, p3], fun q => by fin_cases q <;> assumption⟩ hall
      exact ⟨.error e, fun dataset f hf => he dataset f hf⟩

theorem avg_quarters {m : ℕ} (F : Fin m → ℝ) :
    avg (fun _ : Fin (4 * m) => (1 : ℝ)) (fun p => F (finProdFinEquiv.symm p).2) = avg (fun _ : Fin m => (1 : ℝ)) F := by
  simp only [avg, Finset.sum_const, Finset.card_univ, Fintype.card_fin, nsmul_eq_mul, mul_one, one_mul]
  rw [← Equiv.sum_comp finProdFinEquiv, Fintype.sum_prod_type]
  simp only [Equiv.symm_apply_apply, Finset.sum_const, Finset.card_univ, Fintype.card_fin, nsmul_eq_mul]
  push_cast
  rw [mul_div_mul_left _ _ (by norm_num)]

/-- The four quarters share the key, so their errors need not average out: if the quarters hold the same rows, all four are
compressed to the same positions and the concatenation is exactly as far from all the rows as one compressed quarter is
from its own rows. -/
theorem C70_same_key (P : KTParams X) (hP : KTContract P) (dataset : Data n X ℝ) (hw : ∀ i, 0 < dataset.weights i)
    (g j : ℕ) (f : Fin (4 * cppRows g j) → Fin n) (hf : Function.Injective f)
    (hdata : ∀ q t, dataset.data (f (finProdFinEquiv (q, t))) = dataset.data (f (finProdFinEquiv (0, t))))
    (hweights : ∀ q t, dataset.weights (f (finProdFinEquiv (q, t))) = dataset.weights (f (finProdFinEquiv (0, t)))) :
    ∃ pos : Fin (cppSize g j) → Fin (cppRows g j), Function.Injective pos ∧
      (∀ q : Fin 4, cppCompress P dataset g j (fun t => ((f (finProdFinEquiv (q, t)) : ℕ) : ℤ))
        = .ok (fun t => ((f (finProdFinEquiv (q, pos t)) : ℕ) : ℤ))) ∧
      cppCompress P dataset g (j + 1) (fun t => ((f t : ℕ) : ℤ))
        = cppThin P dataset (2 * cppSize g j) (fun p : Fin (4 * cppSize g j) =>
            ((f (finProdFinEquiv ((finProdFinEquiv.symm p).1, pos (finProdFinEquiv.symm p).2)) : ℕ) : ℤ)) ∧
      mmdOf P.k (fun p : Fin (4 * cppSize g j) =>
          dataset.data (f (finProdFinEquiv ((finProdFinEquiv.symm p).1, pos (finProdFinEquiv.symm p).2))))
          (fun p => dataset.data (f p))
        = mmdOf P.k (fun t => dataset.data (f (finProdFinEquiv (0, pos t))))
            (fun t => dataset.data (f (finProdFinEquiv (0, t)))) := by
  have hsub : ∀ q : Fin 4, Function.Injective (fun t : Fin (cppRows g j) => f (finProdFinEquiv (q, t))) := by
    intro q a b hab
    exact (Prod.ext_iff.1 (finProdFinEquiv.injective (hf hab))).2
  obtain ⟨R, hR⟩ := C70_positions P g j (dataset.getItem fun t => ((f (finProdFinEquiv (0, t)) : ℕ) : ℤ))
  have hR' : ∀ q : Fin 4, _ := fun q => hR dataset (fun t => ((f (finProdFinEquiv (q, t)) : ℕ) : ℤ)) (by
    simp only [Data.getItem, gatherIdx_coe, hdata q, hweights q])
  obtain ⟨r, hri, -, hr⟩ := cppCompress_valid P hP dataset hw g j _ (hsub 0)
  have h0 := hR' 0
  rw [hr] at h0
  rcases R with e | pos
  · cases h0
  simp only [Except.ok.injEq] at h0
  have hok : ∀ q : Fin 4, cppCompress P dataset g j (fun t => ((f (finProdFinEquiv (q, t)) : ℕ) : ℤ))
      = .ok (fun t => ((f (finProdFinEquiv (q, pos t)) : ℕ) : ℤ)) := hR'
  refine ⟨pos, fun a b hab => hri (Fin.ext ?_), hok, ?_, ?_⟩
  · have ha := congrFun h0 a
    have hb := congrFun h0 b
    rw [hab] at ha
    have := ha.trans hb.symm
    exact_mod_cast this
  · rw [cppCompress]
    simp only [hok]
    refine congrArg (cppThin P dataset (2 * cppSize g j)) ?_
    funext p
    generalize (finProdFinEquiv.symm p) = qt
    obtain ⟨q, t⟩ := qt
    fin_cases q <;> rfl
  · have e1 : (fun p : Fin (4 * cppSize g j) =>
        dataset.data (f (finProdFinEquiv ((finProdFinEquiv.symm p).1, pos (finProdFinEquiv.symm p).2))))
        = fun p => dataset.data (f (finProdFinEquiv (0, pos (finProdFinEquiv.symm p).2))) := by
      funext p; exact hdata _ _
    have e2 : (fun p : Fin (4 * cppRows g j) => dataset.data (f p))
        = fun p => dataset.data (f (finProdFinEquiv (0, (finProdFinEquiv.symm p).2))) := by
      funext p
      have := hdata (finProdFinEquiv.symm p).1 (finProdFinEquiv.symm p).2
      rwa [Prod.mk.eta, Equiv.apply_symm_apply] at this
    rw [e1, e2, mmdOf, mmdOf]
    congr 1
    simp only [mmdSq]
    have a1 : ∀ F : Fin (cppSize g j) → ℝ, avg (fun _ : Fin (4 * cppSize g j) => (1 : ℝ))
        (fun p => F (finProdFinEquiv.symm p).2) = avg (fun _ => (1 : ℝ)) F := avg_quarters
    have a2 : ∀ F : Fin (cppRows g j) → ℝ, avg (fun _ : Fin (4 * cppRows g j) => (1 : ℝ))
        (fun p => F (finProdFinEquiv.symm p).2) = avg (fun _ => (1 : ℝ)) F := avg_quarters
    have b2 : ∀ z : X, avg (fun _ : Fin (4 * cppRows g j) => (1 : ℝ))
        (fun p => P.k z (dataset.data (f (finProdFinEquiv (0, (finProdFinEquiv.symm p).2)))))
        = avg (fun _ => (1 : ℝ)) fun t => P.k z (dataset.data (f (finProdFinEquiv (0, t)))) :=
      fun z => a2 (fun t => P.k z (dataset.data (f (finProdFinEquiv (0, t)))))
    have b1 : ∀ z : X, avg (fun _ : Fin (4 * cppSize g j) => (1 : ℝ))
        (fun p => P.k z (dataset.data (f (finProdFinEquiv (0, pos (finProdFinEquiv.symm p).2)))))
        = avg (fun _ => (1 : ℝ)) fun t => P.k z (dataset.data (f (finProdFinEquiv (0, pos t)))) :=
      fun z => a1 (fun t => P.k z (dataset.data (f (finProdFinEquiv (0, pos t)))))
    simp only [b1, b2]
    rw [a1 (fun t => avg (fun _ => (1 : ℝ)) fun s => P.k (dataset.data (f (finProdFinEquiv (0, pos t))))
        (dataset.data (f (finProdFinEquiv (0, pos s))))),
      a1 (fun t => avg (fun _ => (1 : ℝ)) fun s => P.k (dataset.data (f (finProdFinEquiv (0, pos t))))
        (dataset.data (f (finProdFinEquiv (0, s))))),
      a2 (fun t => avg (fun _ => (1 : ℝ)) fun s => P.k (dataset.data (f (finProdFinEquiv (0, t))))
        (dataset.data (f (finProdFinEquiv (0, s)))))]

end

theorem firstParams_psd : IsPSD firstParams.k := by
  have h : IsPSD fun a b : ℝ => (Real.exp (-a ^ 2) * Real.exp (-b ^ 2)) * Real.exp (2 * (a * b)) :=
    (isPSD_rankOne fun a : ℝ => Real.exp (-a ^ 2)).mul ((isPSD_rankOne fun x : ℝ => x).smul (a := 2) (by norm_num)).exp
  refine cast (congrArg IsPSD ?_) h
  funext a b
  change _ = Real.exp (-(a - b) ^ 2)
  rw [← Real.exp_add, ← Real.exp_add]
  ring_nf

theorem firstParams_within {n l size : ℕ} [NeZero n] [NeZero l] [NeZero size] (hl : l = 2 * size) (x : Fin n → ℝ) :
    ThinWithin firstParams ⟨x, fun _ => 1⟩ l size (√2 / 2) :=
  C70_diameter firstParams firstParams_contract firstParams_psd ⟨x, fun _ => 1⟩ 1 one_pos (fun _ => rfl)
    (fun i j => by simp [firstParams]) (√2) (fun i j => by
      refine Real.sqrt_le_sqrt ?_
      have := Real.exp_pos (-(x i - x j) ^ 2)
      simp only [firstParams, sub_self]
      norm_num
      exact this.le) hl (by
      change Nat.log 2 (l / size) = 1
      rw [hl, Nat.mul_div_cancel _ (NeZero.pos size)]
      rfl)

/-- Compress++ of seventeen points to four with `g = 1`: one level of halving and a final halving. -/
example := C70_levels (n := 17) (size := 4) firstParams firstParams_contract firstParams_psd 1 (fun _ => firstChoice)
  (fun _ => firstChoice_contract) ⟨fun i : Fin 17 => (i : ℝ), fun _ => 1⟩ (fun _ => one_pos) (by norm_num) 2 (by norm_num)
  (by norm_num) (by norm_num) (fun _ => √2 / 2) (√2 / 2) (fun i _ => firstParams_within (by omega) _)
  (firstParams_within (by simp [cppSize]) _)

/-- Eight consecutive numbers are halved to four. -/
example := C70_halving (n := 8) firstParams firstParams_contract firstParams_psd ⟨fun i : Fin 8 => (i : ℝ), fun _ => 1⟩ 1
  one_pos (fun _ => rfl) (fun i j => by simp [firstParams]) (size := 4) (by change Nat.log 2 (8 / 4) = 1; rfl) id
  Function.injective_id

/-- Four copies of the same sixteen numbers: every quarter is compressed to the same eight positions. -/
example := C70_same_key (n := 64) firstParams firstParams_contract ⟨fun i : Fin 64 => (((i : ℕ) % 16 : ℕ) : ℝ), fun _ => 1⟩
  (fun _ => one_pos) 1 1 (fun t : Fin 64 => t) (fun _ _ h => h) (fun q t => by
    have hrows : cppRows 1 1 = 16 := rfl
    refine congrArg (Nat.cast : ℕ → ℝ) ?_
    simp only [finProdFinEquiv_apply_val, hrows]
    simp [Nat.add_mul_mod_self_left]) (fun _ _ => rfl)

example := C70_positions firstParams 1 2 ⟨fun t => ((t : ℕ) : ℝ), fun _ => 1⟩

end Coreax
