import Verif.Lemmas.PSD
import Verif.Lemmas.MapReduceMean
import Verif.Props.MapReduceCases
import Verif.Props.SteinRate
import Verif.Props.Metrics

/-!
# C58: the error of map-reduce
-/

set_option linter.unusedSectionVars false

namespace Coreax

open Greedy Spec MRMean

/-- An error bound of a base solver: on non-negatively weighted data with enough positively weighted rows, all of them in `S` (and equally
weighted if `uniform`), it selects such rows, gives them weight one, and the squared MMD to the data is at most `ε²`. -/
def BaseError {X : Type} {size : ℕ} (base : BaseSolver X ℝ size) (k : X → X → ℝ) (uniform : Bool) (S : Set X) (ε : ℝ) : Prop :=
  ∀ (n : ℕ) [NeZero n] (d : Data n X ℝ), (∀ j, 0 ≤ d.weights j) → (uniform = true → UniformWeights d.weights) → PosCount d.weights size →
    (∀ j, 0 < d.weights j → d.data j ∈ S) →
    ∃ f : Fin size → Fin n, base n d = .ok ⟨fun t => ((f t : ℕ) : ℤ), fun _ => 1⟩ ∧ (∀ t, 0 < d.weights (f t)) ∧
      mmdSq k d.data d.weights (fun t => d.data (f t)) (fun _ => 1) ≤ ε ^ 2

/-- The weights of the data rescaled so that all leaves have the same mass. -/
noncomputable def Spec.balanced {n L : ℕ} (q : Fin n → Fin L) (w : Fin n → ℝ) (i : Fin n) : ℝ := w i / ∑ j, if q j = q i then w j else 0

section
variable {X : Type} [Zero X] {size : ℕ} [NeZero size]

section Round
variable {H : Type} [NormedAddCommGroup H] [InnerProductSpace ℝ H] (φ : X → H) {k : X → X → ℝ} (hφ : ∀ a b, k a b = inner ℝ (φ a) (φ b))
include hφ

/-- One round: the mean of the concatenated coresets is within `ε` of the mean of the data with balanced leaves. -/
theorem round_error (leaf : ℕ) {base : BaseSolver X ℝ size} {uniform : Bool} {S : Set X} {ε : ℝ} (hε : 0 ≤ ε) (hb : BaseError base k uniform S ε)
    (tree : TreeIndices X ℝ) (ht : TreeContract tree) {n : ℕ} [NeZero n] (d : Data n X ℝ) (hw : ∀ j, 0 ≤ d.weights j)
    (hu : uniform = true → UniformWeights d.weights) (hS : ∀ j, 0 < d.weights j → d.data j ∈ S)
    (hleaf : ∀ q, PosCount (partData leaf tree d q).weights size) :
    ∃ (r : Fin (nLeaves n leaf) → Data size ℤ ℝ) (s : Fin (nLeaves n leaf * size) → Fin n) (q : Fin n → Fin (nLeaves n leaf)),
      seqFin (nLeaves n leaf) (fun q => base (partRows n leaf) (partData leaf tree d q)) = .ok r ∧
      mrIndices leaf tree d r = (fun p => ((s p : ℕ) : ℤ)) ∧ (mrConcat leaf tree d r).data = (fun p => d.data (s p)) ∧
      (mrConcat leaf tree d r).weights = (fun _ => 1) ∧ (∀ p, 0 < d.weights (s p)) ∧ IsLeafMap leaf tree d q ∧
      (∀ a, leafMass q d.weights a = ∑ t, (partData leaf tree d a).weights t) ∧ (∀ a, 0 < leafMass q d.weights a) ∧
      ‖meanEmbedding φ d.data (balanced q d.weights) - meanEmbedding φ (mrConcat leaf tree d r).data (fun _ => 1)‖ ≤ ε := by
  obtain ⟨F, hF, hbij⟩ := ht (n + mrPadding n leaf) (nLeaves n leaf) (partRows n leaf) (d.pad (mrPadding n leaf))
    (add_mrPadding n leaf)
  obtain ⟨q, hq, hsum⟩ := exists_leafMap leaf tree ht d
  have hwt : ∀ q t, (partData leaf tree d q).weights t = (d.pad (mrPadding n leaf)).weights (F q t) := by
    intro q t
    simp only [partData, Data.getItem]
    rw [hF, gatherIdx_coe]
  have hdt : ∀ q t, (partData leaf tree d q).data t = (d.pad (mrPadding n leaf)).data (F q t) := by
    intro q t
    simp only [partData, Data.getItem]
    rw [hF, gatherIdx_coe]
  have hpadw : ∀ i, (d.pad (mrPadding n leaf)).weights i = 0 ∨ ∃ j, (d.pad (mrPadding n leaf)).weights i = d.weights j ∧ (d.pad (mrPadding n leaf)).data i = d.data j := by
    intro i
    by_cases hi : (i : ℕ) < n
    · exact Or.inr ⟨⟨i, hi⟩, (pad_data d i hi).2, (pad_data d i hi).1⟩
    · left
      obtain ⟨j, rfl⟩ : ∃ j, i = Fin.natAdd n j := ⟨⟨(i : ℕ) - n, by have := i.2; omega⟩, by apply Fin.ext; simp; omega⟩
      simp [Data.pad, zeroPad]
  have hpw : ∀ a t, 0 ≤ (partData leaf tree d a).weights t := by
    intro a t
    rw [hwt]
    rcases hpadw (F a t) with h | ⟨j, h, -⟩ <;> rw [h]
    exact hw j
  have hpu : ∀ a, uniform = true → UniformWeights (partData leaf tree d a).weights := by
    intro a hun
    obtain ⟨u, hu0, hu1⟩ := hu hun
    refine ⟨u, hu0, fun t => ?_⟩
    rw [hwt]
    rcases hpadw (F a t) with h | ⟨j, h, -⟩ <;> rw [h]
    · exact Or.inl rfl
    · exact hu1 j
  have hpS : ∀ a t, 0 < (partData leaf tree d a).weights t → (partData leaf tree d a).data t ∈ S := by
    intro a t h0
    rw [hwt] at h0
    rw [hdt]
    rcases hpadw (F a t) with h | ⟨j, h, h2⟩
    · rw [h] at h0; exact absurd h0 (lt_irrefl _)
    · rw [h2]; rw [h] at h0; exact hS j h0
  choose f hok hpos herr using fun a => hb (partRows n leaf) (partData leaf tree d a) (hpw a) (hpu a) (hleaf a) (hpS a)
  have hlt : ∀ q t, ((F q (f q t) : Fin (n + mrPadding n leaf)) : ℕ) < n := by
    intro q t
    have := hpos q t
    rw [hwt] at this
    exact pad_weights_pos this
  have hmass : ∀ a, leafMass q d.weights a = ∑ t, (partData leaf tree d a).weights t := by
    intro a
    have h := hsum ℝ (fun b => if b = a then 1 else 0) (fun _ => (1 : ℝ))
    simp only [smul_eq_mul, mul_one, ite_mul, one_mul, zero_mul, Finset.sum_ite_eq', Finset.mem_univ, if_true] at h
    rw [h]; rfl
  have hmpos : ∀ a, 0 < ∑ t, (partData leaf tree d a).weights t := by
    intro a
    obtain ⟨t, ht⟩ := Finset.card_pos.1 (lt_of_lt_of_le (NeZero.pos size) (hleaf a))
    exact Finset.sum_pos' (fun i _ => hpw a i) ⟨t, Finset.mem_univ _, (Finset.mem_filter.1 ht).2⟩
  refine ⟨fun q => ⟨fun t => ((f q t : ℕ) : ℤ), fun _ => 1⟩,
    fun p => ⟨F (finProdFinEquiv.symm p).1 (f (finProdFinEquiv.symm p).1 (finProdFinEquiv.symm p).2), hlt _ _⟩, q,
    seqFin_ok _ _ _ hok, ?_, ?_, rfl, ?_, hq, hmass, fun a => by rw [hmass]; exact hmpos a, ?_⟩
  · funext p
    simp only [mrIndices, partIdx, gatherIdx_coe]
    rw [hF]
    rw [show (((F (finProdFinEquiv.symm p).1 (f (finProdFinEquiv.symm p).1 (finProdFinEquiv.symm p).2)) : ℕ) : ℤ)
      = (((⟨_, hlt (finProdFinEquiv.symm p).1 (finProdFinEquiv.symm p).2⟩ : Fin n) : ℕ) : ℤ) from rfl, gatherIdx_coe]
  · funext p
    simp only [mrConcat, gatherIdx_coe]
    rw [hdt, (pad_data d _ (hlt _ _)).1]
  · intro p
    have h := hpos (finProdFinEquiv.symm p).1 (finProdFinEquiv.symm p).2
    rw [hwt, (pad_data d _ (hlt _ _)).2] at h
    exact h
  · have hL : (0 : ℝ) < nLeaves n leaf := by exact_mod_cast NeZero.pos (nLeaves n leaf)
    have hbal : meanEmbedding φ d.data (balanced q d.weights)
        = (nLeaves n leaf : ℝ)⁻¹ • ∑ a, meanEmbedding φ (partData leaf tree d a).data (partData leaf tree d a).weights := by
      have hv : balanced q d.weights = fun i => (∑ t, (partData leaf tree d (q i)).weights t)⁻¹ * d.weights i := by
        funext i
        rw [balanced, ← hmass, leafMass, div_eq_inv_mul]
      unfold meanEmbedding
      rw [hsum H (fun a => (∑ t, (partData leaf tree d a).weights t)⁻¹) φ, hv]
      congr 1
      have h := hsum ℝ (fun a => (∑ t, (partData leaf tree d a).weights t)⁻¹) (fun _ => (1 : ℝ))
      simp only [smul_eq_mul, mul_one] at h
      rw [← h]
      simp only [inv_mul_cancel₀ (hmpos _).ne', Finset.sum_const, Finset.card_univ, Fintype.card_fin, nsmul_eq_mul, mul_one]
    have hcon : meanEmbedding φ (mrConcat leaf tree d fun q => ⟨fun t => ((f q t : ℕ) : ℤ), fun _ => 1⟩).data (fun _ => 1)
        = (nLeaves n leaf : ℝ)⁻¹ • ∑ a, meanEmbedding φ (fun t => (partData leaf tree d a).data (f a t)) (fun _ => 1) := by
      rw [← concat_mean φ fun a t => (partData leaf tree d a).data (f a t)]
      simp only [mrConcat, gatherIdx_coe]
    rw [hbal, hcon, ← smul_sub, ← Finset.sum_sub_distrib, norm_smul, norm_inv, Real.norm_of_nonneg hL.le, inv_mul_le_iff₀ hL]
    refine (norm_sum_le _ _).trans ?_
    calc _ ≤ ∑ _a : Fin (nLeaves n leaf), ε := Finset.sum_le_sum fun a _ => by
          have h := herr a
          rw [mmdSq_eq_norm φ hφ] at h
          exact (abs_le.1 (abs_le_of_sq_le_sq h hε)).2
      _ = nLeaves n leaf * ε := by simp

/-- Without padding and with unit weights the leaves are balanced. -/
theorem balanced_of_ones (leaf : ℕ) (tree : TreeIndices X ℝ) {n : ℕ} [NeZero n] (d : Data n X ℝ) (hw : ∀ j, d.weights j = 1) (hp : mrPadding n leaf = 0)
    (q : Fin n → Fin (nLeaves n leaf)) (hm : ∀ a, leafMass q d.weights a = ∑ t, (partData leaf tree d a).weights t) :
    meanEmbedding φ d.data (balanced q d.weights) = meanEmbedding φ d.data (fun _ => 1) := by
  have h1 : ∀ a t, (partData leaf tree d a).weights t = 1 := by
    intro a t
    simp only [partData, Data.getItem]
    generalize gatherIdx (n + mrPadding n leaf) _ = i
    rw [(pad_data d i (by have := i.2; omega)).2]
    exact hw _
  have h2 : balanced q d.weights = fun i => ((partRows n leaf : ℝ))⁻¹ * 1 := by
    funext i
    have h := hm (q i)
    simp only [h1, Finset.sum_const, Finset.card_univ, Fintype.card_fin, nsmul_eq_mul, mul_one] at h
    rw [balanced, hw i, ← h, leafMass, one_div, mul_one]
  rw [h2]
  exact mean_scale φ d.data (fun _ => 1) (inv_ne_zero (by exact_mod_cast NeZero.ne (partRows n leaf)))

/-- All rounds on unit weights and a power of two times the coreset size: each adds at most `ε`. -/
theorem run_error (leaf : ℕ) (h0 : 2 ≤ leaf) (hs : size ≤ leaf / 2) {base : BaseSolver X ℝ size} {uniform : Bool} {S : Set X} {ε : ℝ} (hε : 0 ≤ ε)
    (hb : BaseError base k uniform S ε) (tree : TreeIndices X ℝ) (ht : TreeContract tree) {N : ℕ} [NeZero N] (orig : Data N X ℝ) :
    ∀ (fuel j n : ℕ) [NeZero n] (d : Data n X ℝ) (idx : Option (Fin n → ℤ)) (g : Fin n → Fin N) (res : Data size ℤ ℝ), n = 2 ^ j * size →
      (∀ t, d.weights t = 1) → (∀ t, d.data t = orig.data (g t)) → (∀ t, d.data t ∈ S) →
      (∀ (m : ℕ) (i : Fin m → Fin n), composeIdx idx (fun t => ((i t : ℕ) : ℤ)) = fun t => ((g (i t) : ℕ) : ℤ)) →
      mrRun leaf base tree fuel n d idx = some (.ok res) →
      ∃ f : Fin size → Fin N, res = ⟨fun t => ((f t : ℕ) : ℤ), fun _ => 1⟩ ∧
        ‖meanEmbedding φ d.data (fun _ => 1) - meanEmbedding φ (fun t => orig.data (f t)) (fun _ => 1)‖ ≤ fuel * ε
  | 0, _, _, _, _, _, _, _, _, _, _, _, _, hr => by simp [mrRun] at hr
  | fuel + 1, j, n, _, d, idx, g, res, hn, hw, hdata, hS, hidx, hr => by
    have hpw : d.weights = fun _ => 1 := funext hw
    have hun : UniformWeights d.weights := ⟨1, one_pos, fun t => Or.inr (hw t)⟩
    have hnn : ∀ t, 0 ≤ d.weights t := fun t => by rw [hw]; exact zero_le_one
    have hpp : ∀ t, 0 < d.weights t := fun t => by rw [hw]; exact one_pos
    have hfe : (0 : ℝ) ≤ fuel * ε := by positivity
    simp only [mrRun] at hr
    split_ifs at hr with hle
    · obtain ⟨f, h1, h2, h3⟩ := hb n d hnn (fun _ => hun) (posCount_of_pos hpp (by rw [hn]; exact Nat.le_mul_of_pos_left _ (by positivity))) (fun t _ => hS t)
      rw [h1] at hr
      simp only [Option.some.injEq, Except.ok.injEq] at hr
      refine ⟨g ∘ f, ?_, ?_⟩
      · rw [← hr, hidx]; rfl
      · rw [mmdSq_eq_norm φ hφ, hpw] at h3
        have h4 := (abs_le.1 (abs_le_of_sq_le_sq h3 hε)).2
        have e : d.data = fun t => orig.data (g t) := funext hdata
        rw [e] at h4 ⊢
        simp only [Function.comp] at h4 ⊢
        push_cast
        linarith
    · have hlt := not_le.1 hle
      have hnp : mrPadding n leaf = 0 := by subst hn; exact no_padding h0 (NeZero.pos size) hs hlt
      have hpart : ∀ q, PosCount (partData leaf tree d q).weights size := fun q =>
        posCount_of_pos (part_pos_of_no_padding leaf tree d hpp hnp q) (by have := (partRows_bounds h0 hlt).1; omega)
      obtain ⟨r, s, q, h1, h2, h3, h4, h5, h6, h7, h8, h9⟩ := round_error φ hφ leaf hε hb tree ht d hnn (fun _ => hun) (fun t _ => hS t) hpart
      rw [h1] at hr
      simp only at hr
      obtain ⟨f, h10, h11⟩ := run_error leaf h0 hs hε hb tree ht orig fuel _ _ (mrConcat leaf tree d r) _ (g ∘ s) res rfl (fun t => by rw [h4])
        (fun t => by rw [h3]; exact hdata _) (fun t => by rw [h3]; exact hS _) (by
          intro m i
          rw [h2, hidx]
          funext t
          simp only [composeIdx, gatherIdx_coe]
          rfl) hr
      refine ⟨f, h10, ?_⟩
      rw [balanced_of_ones φ hφ leaf tree d hw hnp q h7] at h9
      have := norm_sub_le_norm_sub_add_norm_sub (meanEmbedding φ d.data (fun _ => 1)) (meanEmbedding φ (mrConcat leaf tree d r).data (fun _ => 1))
        (meanEmbedding φ (fun t => orig.data (f t)) (fun _ => 1))
      push_cast
      linarith

end Round

/-! ### The theorems -/

theorem sum_leafMass {n L : ℕ} (q : Fin n → Fin L) (w : Fin n → ℝ) (h : Fin L → ℝ) : ∑ i, w i * h (q i) = ∑ a, leafMass q w a * h a := by
  simp only [leafMass, Finset.sum_mul]
  rw [Finset.sum_comm]
  refine Finset.sum_congr rfl fun i _ => ?_
  simp only [ite_mul, zero_mul, Finset.sum_ite_eq, Finset.mem_univ, if_true]

theorem sum_balanced {n L : ℕ} (q : Fin n → Fin L) (w : Fin n → ℝ) (hq : ∀ a, 0 < leafMass q w a) : ∑ i, balanced q w i = L := by
  have h := sum_leafMass q w (fun a => (leafMass q w a)⁻¹)
  simp only [mul_inv_cancel₀ (hq _).ne', Finset.sum_const, Finset.card_univ, Fintype.card_fin, nsmul_eq_mul, mul_one] at h
  rw [← h]
  exact Finset.sum_congr rfl fun i _ => by rw [balanced, div_eq_mul_inv]; rfl

/-- The error of map-reduce on more rows than a leaf: with an error of the base solver of at most `ε`, the result is within `rounds * ε` of the
data *with all leaves of the first round given the same mass*; the distance of these to the data (zero only for balanced leaves) stays.
`rounds` is the number of rounds that the recursion takes, at most logarithmic. -/
theorem C58_error (big : ℝ) (k : X → X → ℝ) (hk : IsPSD k) (leaf : ℕ) (h0 : 2 ≤ leaf) (hs : size ≤ leaf / 2) (base : BaseSolver X ℝ size)
    (uniform : Bool) (S : Set X) {ε : ℝ} (hε : 0 ≤ ε) (hb : BaseError base k uniform S ε) (tree : TreeIndices X ℝ) (ht : TreeContract tree)
    {N : ℕ} [NeZero N] (hN : leaf < N) (d : Data N X ℝ) (hw : ∀ t, 0 ≤ d.weights t) (hu : uniform = true → UniformWeights d.weights)
    (hS : ∀ t, 0 < d.weights t → d.data t ∈ S) (hpart : ∀ a, PosCount (partData leaf tree d a).weights size) :
    ∃ (rounds : ℕ) (f : Fin size → Fin N) (q : Fin N → Fin (nLeaves N leaf)), rounds ≤ Nat.log 2 ((N - 1) / (leaf / 2)) + 2 ∧
      (∀ fuel, rounds ≤ fuel → mrRun leaf base tree fuel N d none = some (.ok ⟨fun t => ((f t : ℕ) : ℤ), fun _ => 1⟩)) ∧
      (∀ fuel, fuel < rounds → mrRun leaf base tree fuel N d none = none) ∧
      IsLeafMap leaf tree d q ∧ (∀ a, 0 < leafMass q d.weights a) ∧
      ∀ bs, ValidBlock bs → ∃ r b e,
        mmdCompute big k d ⟨fun t => d.data (f t), fun _ => 1⟩ bs = .ok r ∧
        mmdCompute big k d ⟨d.data, balanced q d.weights⟩ bs = .ok b ∧
        mmdCompute big k ⟨d.data, balanced q d.weights⟩ ⟨fun t => d.data (f t), fun _ => 1⟩ bs = .ok e ∧
        e ≤ rounds * ε ∧ |r - b| ≤ rounds * ε := by
  obtain ⟨H, _, _, φ, hφ⟩ := hk.exists_feature
  obtain ⟨out, hout⟩ := C23_terminates leaf h0 hs base tree d
  have hex : ∃ fuel, (mrRun leaf base tree fuel N d none).isSome := ⟨_, by rw [hout _ le_rfl]; rfl⟩
  classical
  set rounds := Nat.find hex with hrounds
  have hfind := Nat.find_spec hex
  rw [← hrounds] at hfind
  obtain ⟨r, s, q, h1, h2, h3, h4, h5, h6, h7, h8, h9⟩ := round_error φ hφ leaf hε hb tree ht d hw hu hS hpart
  obtain ⟨m, hm⟩ : ∃ m, rounds = m + 1 := by
    cases hc : rounds with
    | zero => rw [hc] at hfind; simp [mrRun] at hfind
    | succ m => exact ⟨m, rfl⟩
  have hstep : mrRun leaf base tree rounds N d none
      = mrRun leaf base tree m (nLeaves N leaf * size) (mrConcat leaf tree d r) (some fun p => ((s p : ℕ) : ℤ)) := by
    rw [hm]
    simp only [mrRun, if_neg (not_le.2 hN), h1, h2, composeIdx]
  have hsz : nLeaves N leaf * size = 2 ^ Nat.log 2 ((N - 1) / halfLeaf leaf) * size := rfl
  obtain ⟨o, ho⟩ := Option.isSome_iff_exists.1 hfind
  have hok : ∃ res, o = .ok res := by
    have hall : ∀ (fuel j n : ℕ) [NeZero n] (d : Data n X ℝ) (idx : Option (Fin n → ℤ)) (o), n = 2 ^ j * size → (∀ t, d.weights t = 1) → (∀ t, d.data t ∈ S) →
        mrRun leaf base tree fuel n d idx = some o → ∃ res, o = .ok res := by
      intro fuel
      induction fuel with
      | zero => intro j n _ d idx o _ _ _ h; simp [mrRun] at h
      | succ fuel ih =>
        intro j n _ d idx o hn hw1 hS1 h
        have hun : UniformWeights d.weights := ⟨1, one_pos, fun t => Or.inr (hw1 t)⟩
        have hnn : ∀ t, 0 ≤ d.weights t := fun t => by rw [hw1]; exact zero_le_one
        have hpp : ∀ t, 0 < d.weights t := fun t => by rw [hw1]; exact one_pos
        simp only [mrRun] at h
        split_ifs at h with hle
        · obtain ⟨f, h1, -⟩ := hb n d hnn (fun _ => hun) (posCount_of_pos hpp (by rw [hn]; exact Nat.le_mul_of_pos_left _ (by positivity))) (fun t _ => hS1 t)
          rw [h1] at h
          exact ⟨_, (Option.some.inj h).symm⟩
        · have hlt := not_le.1 hle
          have hnp : mrPadding n leaf = 0 := by subst hn; exact no_padding h0 (NeZero.pos size) hs hlt
          obtain ⟨r, s, q, h1, h2, h3, h4, -⟩ := round_error φ hφ leaf hε hb tree ht d hnn (fun _ => hun) (fun t _ => hS1 t) (fun q =>
            posCount_of_pos (part_pos_of_no_padding leaf tree d hpp hnp q) (by have := (partRows_bounds h0 hlt).1; omega))
          rw [h1] at h
          exact ih _ _ (mrConcat leaf tree d r) _ _ rfl (fun t => by rw [h4]) (fun t => by rw [h3]; exact hS1 _) h
    rw [hstep] at ho
    exact hall _ _ _ _ _ _ hsz (fun t => by rw [h4]) (fun t => by rw [h3]; exact hS _ (h5 t)) ho
  obtain ⟨res, rfl⟩ := hok
  obtain ⟨f, hf, herr⟩ := run_error φ hφ leaf h0 hs hε hb tree ht d m _ _ (mrConcat leaf tree d r) (some fun p => ((s p : ℕ) : ℤ)) s res hsz
    (fun t => by rw [h4]) (fun t => by rw [h3]) (fun t => by rw [h3]; exact hS _ (h5 t))
    (fun m i => by funext t; simp only [composeIdx, gatherIdx_coe]) (by rw [← hstep]; exact ho)
  subst hf
  refine ⟨rounds, f, q, Nat.find_min' hex (by rw [hout _ le_rfl]; rfl), fun fuel hfu => mrRun_mono leaf base tree rounds d none _ ho fuel hfu,
    fun fuel hfu => ?_, h6, h8, fun bs hbs => ?_⟩
  · have := Nat.find_min hex hfu
    simpa using this
  · have hL : (0 : ℝ) < nLeaves N leaf := by exact_mod_cast NeZero.pos (nLeaves N leaf)
    have hW : ∑ i, d.weights i ≠ 0 := by
      have e := sum_leafMass q d.weights (fun _ => 1)
      simp only [mul_one] at e
      rw [e]
      exact (Finset.sum_pos (fun a _ => h8 a) ⟨0, Finset.mem_univ _⟩).ne'
    have hB : ∑ i, balanced q d.weights i ≠ 0 := by rw [sum_balanced q d.weights h8]; exact hL.ne'
    have hP : ∑ _i : Fin size, (1 : ℝ) ≠ 0 := by simp [NeZero.ne size]
    have hsz' := NeZero.pos size
    have hNp := NeZero.pos N
    refine ⟨_, _, _, (C07_rkhs_distance big k hk hNp hsz' d ⟨fun t => d.data (f t), fun _ => 1⟩ hW hP bs hbs).2 H _ _ φ hφ,
      (C07_rkhs_distance big k hk hNp hNp d ⟨d.data, balanced q d.weights⟩ hW hB bs hbs).2 H _ _ φ hφ,
      (C07_rkhs_distance big k hk hNp hsz' ⟨d.data, balanced q d.weights⟩ ⟨fun t => d.data (f t), fun _ => 1⟩ hB hP bs hbs).2 H _ _ φ hφ, ?_⟩
    have key : ‖meanEmbedding φ d.data (balanced q d.weights) - meanEmbedding φ (fun t => d.data (f t)) (fun _ => 1)‖ ≤ rounds * ε := by
      have := norm_sub_le_norm_sub_add_norm_sub (meanEmbedding φ d.data (balanced q d.weights)) (meanEmbedding φ (mrConcat leaf tree d r).data (fun _ => 1))
        (meanEmbedding φ (fun t => d.data (f t)) (fun _ => 1))
      rw [hm]
      push_cast
      linarith
    refine ⟨key, (abs_norm_sub_norm_le _ _).trans ?_⟩
    rw [sub_sub_sub_cancel_left]
    exact key

/-- The distance between the data and the same data with balanced leaves, in terms of the masses of the leaves. -/
theorem C58_bias (big : ℝ) (k : X → X → ℝ) (hk : IsPSD k) {n L : ℕ} [NeZero n] (hL : 0 < L) (d : Data n X ℝ) (hw : ∀ t, 0 ≤ d.weights t) (q : Fin n → Fin L)
    (hq : ∀ a, 0 < leafMass q d.weights a) {R : ℝ} (hR : ∀ t, 0 < d.weights t → k (d.data t) (d.data t) ≤ R) (bs) (hbs : ValidBlock bs) :
    ∃ b, mmdCompute big k d ⟨d.data, balanced q d.weights⟩ bs = .ok b ∧
      b ≤ Real.sqrt R * ∑ a, |leafMass q d.weights a / (∑ i, d.weights i) - 1 / L| := by
  obtain ⟨H, _, _, φ, hφ⟩ := hk.exists_feature
  have hL' : (0 : ℝ) < L := by exact_mod_cast hL
  have e := sum_leafMass q d.weights (fun _ => 1)
  simp only [mul_one] at e
  have hW : 0 < ∑ i, d.weights i := by
    rw [e]
    exact Finset.sum_pos (fun a _ => hq a) ⟨⟨0, hL⟩, Finset.mem_univ _⟩
  have hB := sum_balanced q d.weights hq
  refine ⟨_, (C07_rkhs_distance big k hk (NeZero.pos n) (NeZero.pos n) d ⟨d.data, balanced q d.weights⟩ hW.ne' (by simp only [hB]; exact hL'.ne') bs hbs).2 H _ _ φ hφ, ?_⟩
  simp only [meanEmbedding, hB, Finset.smul_sum, smul_smul]
  set W := ∑ i, d.weights i with hWdef
  rw [← Finset.sum_sub_distrib]
  have h1 : ∀ i, (W⁻¹ * d.weights i) • φ (d.data i) - ((L : ℝ)⁻¹ * balanced q d.weights i) • φ (d.data i)
      = (d.weights i * (1 / W - 1 / (L * leafMass q d.weights (q i)))) • φ (d.data i) := by
    intro i
    rw [← sub_smul]
    congr 1
    have := (hq (q i)).ne'
    have h2 : balanced q d.weights i = d.weights i / leafMass q d.weights (q i) := rfl
    rw [h2]
    field_simp
  simp only [h1]
  refine (norm_sum_le _ _).trans ?_
  have h2 : ∀ i, ‖(d.weights i * (1 / W - 1 / (L * leafMass q d.weights (q i)))) • φ (d.data i)‖
      ≤ Real.sqrt R * (d.weights i * |1 / W - 1 / (L * leafMass q d.weights (q i))|) := by
    intro i
    rw [norm_smul, Real.norm_eq_abs, abs_mul, abs_of_nonneg (hw i)]
    rcases (hw i).lt_or_eq with h | h
    · rw [mul_comm (Real.sqrt R)]
      refine mul_le_mul_of_nonneg_left ?_ (by positivity)
      apply Real.le_sqrt_of_sq_le
      rw [← real_inner_self_eq_norm_sq, ← hφ]
      exact hR i h
    · rw [← h]; simp
  refine (Finset.sum_le_sum fun i _ => h2 i).trans (le_of_eq ?_)
  rw [← Finset.mul_sum, sum_leafMass q d.weights (fun a => |1 / W - 1 / (L * leafMass q d.weights a)|)]
  congr 1
  refine Finset.sum_congr rfl fun a _ => ?_
  rw [← abs_of_pos (hq a), ← abs_mul, abs_of_pos (hq a)]
  congr 1
  have := (hq a).ne'
  field_simp

example := C58_bias 1000 (fun a b : ℝ => a * b) (isPSD_rankOne fun x => x) (L := 2) (by norm_num) (⟨![1, 2, 3], ![1, 2, 5]⟩ : Data 3 ℝ ℝ) (fun t => by fin_cases t <;> norm_num) ![0, 1, 1]
  (fun a => by fin_cases a <;> (simp [MRMean.leafMass, Fin.sum_univ_three] <;> norm_num)) (R := 9) (fun t _ => by fin_cases t <;> norm_num) (.leaf none) (.inl rfl)

/-- Unweighted data: the unequal masses of the leaves come from the padding only. -/
theorem C58_padding (leaf : ℕ) (tree : TreeIndices X ℝ) (ht : TreeContract tree) {n : ℕ} [NeZero n] (d : Data n X ℝ) (hw : ∀ t, d.weights t = 1)
    (q : Fin n → Fin (nLeaves n leaf)) (hq : IsLeafMap leaf tree d q) :
    ∑ a, |leafMass q d.weights a / (∑ i, d.weights i) - 1 / nLeaves n leaf| ≤ 2 * mrPadding n leaf / n := by
  obtain ⟨F, hF, hbij⟩ := ht (n + mrPadding n leaf) (nLeaves n leaf) (partRows n leaf) (d.pad (mrPadding n leaf)) (add_mrPadding n leaf)
  have hn : (0 : ℝ) < n := by exact_mod_cast NeZero.pos n
  have hL : (0 : ℝ) < nLeaves n leaf := by exact_mod_cast NeZero.pos (nLeaves n leaf)
  have hle : ∀ a, leafMass q d.weights a ≤ partRows n leaf := by
    intro a
    choose t ht' using hq
    have hinj : ∀ i j : Fin n, q i = q j → t i = t j → i = j := by
      intro i j h1 h2
      have h3 := ht' i
      rw [h1, h2, ht' j] at h3
      exact Fin.ext (by exact_mod_cast h3.symm)
    have e : leafMass q d.weights a = ((Finset.univ.filter fun j => q j = a).card : ℝ) := by
      simp [leafMass, hw]
    rw [e]
    have : (Finset.univ.filter fun j => q j = a).card ≤ (Finset.univ : Finset (Fin (partRows n leaf))).card := by
      refine Finset.card_le_card_of_injOn t (fun _ _ => Finset.mem_coe.2 (Finset.mem_univ _)) ?_
      intro i hi j hj hij
      have h1 := (Finset.mem_filter.1 (Finset.mem_coe.1 hi)).2
      have h2 := (Finset.mem_filter.1 (Finset.mem_coe.1 hj)).2
      exact hinj i j (h1.trans h2.symm) hij
    simp only [Finset.card_univ, Fintype.card_fin] at this
    exact_mod_cast this
  have hW : ∑ i, d.weights i = n := by simp [hw]
  have hsum : ∑ a, leafMass q d.weights a = n := by
    have e := sum_leafMass q d.weights (fun _ => 1)
    simp only [mul_one] at e
    rw [← e, hW]
  have hpad : (n : ℝ) + mrPadding n leaf = nLeaves n leaf * partRows n leaf := by exact_mod_cast add_mrPadding n leaf
  rw [hW]
  have h1 : ∀ a, |leafMass q d.weights a / n - 1 / nLeaves n leaf|
      ≤ (mrPadding n leaf + nLeaves n leaf * (partRows n leaf - leafMass q d.weights a)) / (n * nLeaves n leaf) := by
    intro a
    have e : leafMass q d.weights a / n - 1 / nLeaves n leaf
        = (mrPadding n leaf - nLeaves n leaf * (partRows n leaf - leafMass q d.weights a)) / (n * nLeaves n leaf) := by
      field_simp
      linarith
    rw [e, abs_div, abs_of_pos (mul_pos hn hL)]
    refine div_le_div_of_nonneg_right ?_ (mul_pos hn hL).le
    have h2 : 0 ≤ (nLeaves n leaf : ℝ) * (partRows n leaf - leafMass q d.weights a) := mul_nonneg hL.le (by linarith [hle a])
    have h3 : (0 : ℝ) ≤ mrPadding n leaf := by positivity
    rw [abs_le]
    constructor <;> linarith
  refine (Finset.sum_le_sum fun a _ => h1 a).trans (le_of_eq ?_)
  rw [← Finset.sum_div, Finset.sum_add_distrib, ← Finset.mul_sum, Finset.sum_sub_distrib, hsum]
  simp only [Finset.sum_const, Finset.card_univ, Fintype.card_fin, nsmul_eq_mul]
  rw [← hpad]
  field_simp
  ring

example (q : Fin 17 → Fin (nLeaves 17 6)) (hq : MRMean.IsLeafMap 6 (rowTree ℝ ℝ) (⟨fun i => (i : ℝ), fun _ => 1⟩ : Data 17 ℝ ℝ) q) :=
  C58_padding 6 (rowTree ℝ ℝ) rowTree_contract (⟨fun i => (i : ℝ), fun _ => 1⟩ : Data 17 ℝ ℝ) (fun _ => rfl) q hq

/-! ### Kernel herding -/

/-- Deterministic `KernelHerding` as a base solver, with `unique` given. -/
noncomputable def herdingBaseU (big : ℝ) (k : X → X → ℝ) (unique : Bool) (bs : PyTree (Option ℤ)) (size : ℕ) : BaseSolver X ℝ size := fun _ _ d =>
  match herdingReduce big k none unique bs size d none (List.finRange _) with
  | .ok r => .ok r.1
  | .error e => .error e

theorem herdingBaseU_true (big : ℝ) (k : X → X → ℝ) (bs : PyTree (Option ℤ)) (size : ℕ) :
    herdingBaseU big k true bs size = herdingBase big k bs size := by
  funext n _ d
  simp only [herdingBaseU, herdingBase]
  cases herdingReduce big k none true bs size d none (List.finRange _) <;> rfl

/-- Kernel herding meets the error bound `sqrt (R / size)`; with `unique=True` for equal weights. -/
theorem C58_herding_base (big : ℝ) (k : X → X → ℝ) (hk : IsPSD k) (unique : Bool) (bs : PyTree (Option ℤ)) (hbs : ValidBlock bs) (size : ℕ) (hsize : 0 < size)
    (R : ℝ) : BaseError (herdingBaseU big k unique bs size) k unique {x | k x x ≤ R} (Real.sqrt (R / size)) := by
  intro n _ d hw hu hpos hS
  have hs : (0 : ℝ) < size := by exact_mod_cast hsize
  have hW : 0 < ∑ j, d.weights j := by
    obtain ⟨j, hj⟩ := Finset.card_pos.1 (lt_of_lt_of_le hsize hpos)
    exact Finset.sum_pos' (fun i _ => hw i) ⟨j, Finset.mem_univ _, (Finset.mem_filter.1 hj).2⟩
  obtain ⟨f, h1, h2⟩ := C12_reduce_greedy big k hk.1 unique bs hbs size hsize d hW.ne' none (by simp) (List.finRange _) (List.mem_finRange) hpos
  obtain ⟨f', st, g1, g2, -⟩ := C11_reduce_valid big k none unique bs hbs size hsize d (fun _ h => by cases h) none (List.finRange _) (List.mem_finRange) hpos
  have hff : f' = f := by
    rw [h1] at g1
    simp only [Except.ok.injEq, Prod.mk.injEq, Data.mk.injEq] at g1
    funext t
    have := congrFun g1.1.1 t
    exact Fin.ext (by exact_mod_cast this.symm)
  have hM : 0 ≤ avg d.weights fun i => avg d.weights fun j => k (d.data i) (d.data j) :=
    (Rate.cauchy k hk.1 d.data (hk.2 n d.data) d.weights (fun _ => 0) 0).1
  have hR0 : 0 ≤ R := by
    obtain ⟨j, hj⟩ := Finset.card_pos.1 (lt_of_lt_of_le hsize hpos)
    refine le_trans ?_ (hS j (Finset.mem_filter.1 hj).2)
    have := hk.2 n d.data (Pi.single j 1)
    simpa [Pi.single_apply] using this
  refine ⟨f, by simp only [herdingBaseU, h1], fun t => hff ▸ g2 t, ?_⟩
  rw [Real.sq_sqrt (by positivity)]
  cases unique with
  | true =>
    refine (Rate.run_unique_le k hk.1 d.data (hk.2 n d.data) d.weights (hu rfl) R hS hsize f h2).trans ?_
    gcongr
    linarith
  | false =>
    refine (Rate.run_le k hk.1 d.data d.weights hw hW R hS hsize f h2).trans ?_
    gcongr
    linarith

example := C58_herding_base 1000 (fun a b : ℝ => a * b) (isPSD_rankOne fun x => x) true (.leaf none) (.inl rfl) 2 (by norm_num) 5

/-- Map-reduce with kernel herding (the default `unique=True`) on unweighted data: the MMD is at most `rounds * sqrt (R / size)` plus
`2 * padding / n * sqrt R`. -/
theorem C58_herding (big : ℝ) (k : X → X → ℝ) (hk : IsPSD k) (unique : Bool) (bs : PyTree (Option ℤ)) (hbs : ValidBlock bs) (leaf : ℕ) (h0 : 2 ≤ leaf) (hs : size ≤ leaf / 2)
    (tree : TreeIndices X ℝ) (ht : TreeContract tree) {N : ℕ} [NeZero N] (hN : leaf < N) (d : Data N X ℝ) (hw : ∀ t, d.weights t = 1)
    (hrows : size + mrPadding N leaf ≤ partRows N leaf) {R : ℝ} (hR : ∀ t, k (d.data t) (d.data t) ≤ R) :
    ∃ (rounds : ℕ) (f : Fin size → Fin N), rounds ≤ Nat.log 2 ((N - 1) / (leaf / 2)) + 2 ∧
      (∀ fuel, rounds ≤ fuel → mrRun leaf (herdingBaseU big k unique bs size) tree fuel N d none = some (.ok ⟨fun t => ((f t : ℕ) : ℤ), fun _ => 1⟩)) ∧
      ∀ bs', ValidBlock bs' → ∃ r, mmdCompute big k d ⟨fun t => d.data (f t), fun _ => 1⟩ bs' = .ok r ∧
        r ≤ rounds * Real.sqrt (R / size) + Real.sqrt R * (2 * mrPadding N leaf / N) := by
  have hpp : ∀ t, 0 < d.weights t := fun t => by rw [hw]; exact one_pos
  obtain ⟨rounds, f, q, h1, h2, -, h3, h4, h5⟩ := C58_error big k hk leaf h0 hs (herdingBaseU big k unique bs size) unique {x | k x x ≤ R} (Real.sqrt_nonneg _)
    (C58_herding_base big k hk unique bs hbs size (NeZero.pos size) R) tree ht hN d (fun t => (hpp t).le) (fun _ => ⟨1, one_pos, fun t => Or.inr (hw t)⟩)
    (fun t _ => hR t) (C22_enough_rows leaf tree ht d hpp hrows)
  refine ⟨rounds, f, h1, h2, fun bs' hbs' => ?_⟩
  obtain ⟨r, b, e, g1, g2, -, -, g4⟩ := h5 bs' hbs'
  obtain ⟨b', g5, g6⟩ := C58_bias big k hk (NeZero.pos _) d (fun t => (hpp t).le) q h4 (fun t _ => hR t) bs' hbs'
  have hbb : b = b' := Except.ok.inj (g2.symm.trans g5)
  subst hbb
  refine ⟨r, g1, ?_⟩
  have g7 := mul_le_mul_of_nonneg_left (C58_padding leaf tree ht d hw q h3) (Real.sqrt_nonneg R)
  have g8 := (abs_le.1 g4).2
  linarith

end

/-- Seventeen points, leaves of six rows, coresets of two: the leaves have five rows, three of them padding. -/
example : (2 : ℕ) ≤ 6 / 2 ∧ 6 < 17 ∧ nLeaves 17 6 = 4 ∧ partRows 17 6 = 5 ∧ mrPadding 17 6 = 3 ∧ 2 + mrPadding 17 6 ≤ partRows 17 6 ∧
    TreeContract (rowTree ℝ ℝ) :=
  ⟨by norm_num, by norm_num, by decide +kernel, by decide +kernel, by decide +kernel, by decide +kernel, rowTree_contract⟩

/-! ### Weights between leaves are lost -/

theorem linear_psd : IsPSD (fun a b : ℝ => a * b) := by
  refine ⟨fun a b => mul_comm a b, fun n x c => ?_⟩
  have : ∑ i, ∑ j, c i * c j * (x i * x j) = (∑ i, c i * x i) * ∑ j, c j * x j := by
    rw [Finset.sum_mul_sum]
    exact Finset.sum_congr rfl fun i _ => Finset.sum_congr rfl fun j _ => by ring
  rw [this]
  exact mul_self_nonneg _

/-- `2 h` points at `1` with weight `99`, then `2 h` points at `-1` with weight `1`. -/
noncomputable def lopsided (h : ℕ) : Data (2 * h + 2 * h) ℝ ℝ :=
  ⟨fun i => if (i : ℕ) < 2 * h then 1 else -1, fun i => if (i : ℕ) < 2 * h then 99 else 1⟩

theorem lopsided_leaves {h : ℕ} (hh : 0 < h) : nLeaves (2 * h + 2 * h) (2 * h) = 2 ∧ partRows (2 * h + 2 * h) (2 * h) = 2 * h ∧
    mrPadding (2 * h + 2 * h) (2 * h) = 0 := by
  have h1 : halfLeaf (2 * h) = h := by unfold halfLeaf; omega
  have h2 : nLeaves (2 * h + 2 * h) (2 * h) = 2 := by
    unfold nLeaves
    rw [h1, show (2 * h + 2 * h - 1) / h = 3 from (Nat.div_eq_iff hh).2 (by omega)]
    decide +kernel
  have h3 : partRows (2 * h + 2 * h) (2 * h) = 2 * h := by unfold partRows; rw [h2]; omega
  exact ⟨h2, h3, by unfold mrPadding; rw [h2, h3]; omega⟩

theorem lopsided_leafMap {h : ℕ} (hh : 0 < h) [NeZero (2 * h + 2 * h)] (q : Fin (2 * h + 2 * h) → Fin (nLeaves (2 * h + 2 * h) (2 * h)))
    (hq : IsLeafMap (2 * h) (rowTree ℝ ℝ) (lopsided h) q) (i j : Fin (2 * h + 2 * h)) : q i = q j ↔ ((i : ℕ) < 2 * h ↔ (j : ℕ) < 2 * h) := by
  obtain ⟨h1, h2, -⟩ := lopsided_leaves hh
  have key : ∀ i, ((q i : ℕ) = 0 ↔ (i : ℕ) < 2 * h) ∧ (q i : ℕ) < 2 := by
    intro i
    obtain ⟨t, ht⟩ := hq i
    have hlt : (q i : ℕ) < 2 := by have := (q i).2; omega
    have htl : (t : ℕ) < 2 * h := by have := t.2; omega
    refine ⟨?_, hlt⟩
    simp only [rowTree] at ht
    have ht' : (q i : ℕ) * partRows (2 * h + 2 * h) (2 * h) + (t : ℕ) = (i : ℕ) := by exact_mod_cast ht
    have ht2 : (q i : ℕ) * (2 * h) + (t : ℕ) = (i : ℕ) := by simpa only [h2] using ht'
    clear ht ht'
    constructor
    · intro h0; rw [h0] at ht2; omega
    · intro hi
      by_contra hne
      have : (q i : ℕ) = 1 := by omega
      rw [this] at ht2; omega
  have h3 := key i
  have h4 := key j
  rw [Fin.ext_iff]
  constructor
  · intro h5; rw [← h3.1, ← h4.1, h5]
  · intro h5; rw [← h3.1, ← h4.1] at h5
    omega

/-- The weights between leaves are lost: for every coreset size from 64 on, and every leaf of at least twice this size, herding by map-reduce
has an MMD of at least `1/2` on data of which herding alone has an MMD of at most `1/8`. -/
theorem C58_weights_lost (big : ℝ) (bs : PyTree (Option ℤ)) (hbs : ValidBlock bs) (size h : ℕ) [NeZero size] (hsize : 64 ≤ size) (hh : size ≤ h)
    [NeZero (2 * h + 2 * h)] :
    TreeContract (rowTree ℝ ℝ) ∧ (∀ t, 0 < (lopsided h).weights t) ∧
    (∃ (f : Fin size → Fin (2 * h + 2 * h)) (rounds : ℕ) (r : ℝ),
      (∀ fuel, rounds ≤ fuel → mrRun (2 * h) (herdingBaseU big (fun a b : ℝ => a * b) false bs size) (rowTree ℝ ℝ) fuel _ (lopsided h) none
        = some (.ok ⟨fun t => ((f t : ℕ) : ℤ), fun _ => 1⟩)) ∧
      mmdCompute big (fun a b : ℝ => a * b) (lopsided h) ⟨fun t => (lopsided h).data (f t), fun _ => 1⟩ bs = .ok r ∧ 1 / 2 ≤ r) ∧
    (∃ (f : Fin size → Fin (2 * h + 2 * h)) (r : ℝ),
      herdingBaseU big (fun a b : ℝ => a * b) false bs size _ (lopsided h) = .ok ⟨fun t => ((f t : ℕ) : ℤ), fun _ => 1⟩ ∧
      mmdCompute big (fun a b : ℝ => a * b) (lopsided h) ⟨fun t => (lopsided h).data (f t), fun _ => 1⟩ bs = .ok r ∧ r ≤ 1 / 8) := by
  have hh0 : 0 < h := by omega
  have hhr : (0 : ℝ) < h := by exact_mod_cast hh0
  obtain ⟨hL, hrows, hpad⟩ := lopsided_leaves hh0
  have hpos : ∀ t, 0 < (lopsided h).weights t := by
    intro t; simp only [lopsided]; split_ifs <;> norm_num
  have hS : ∀ t, 0 < (lopsided h).weights t → (lopsided h).data t ∈ {x : ℝ | x * x ≤ 1} := by
    intro t _
    show (lopsided h).data t * (lopsided h).data t ≤ 1
    simp only [lopsided]; split_ifs <;> norm_num
  have hbase := C58_herding_base big (fun a b : ℝ => a * b) linear_psd false bs hbs size (NeZero.pos size) 1
  have heps : Real.sqrt (1 / size) ≤ 1 / 8 := by
    rw [show (1 / 8 : ℝ) = Real.sqrt (1 / 64) by rw [show (1 / 64 : ℝ) = (1 / 8) ^ 2 by norm_num, Real.sqrt_sq (by norm_num)]]
    refine Real.sqrt_le_sqrt ?_
    have : (64 : ℝ) ≤ size := by exact_mod_cast hsize
    exact one_div_le_one_div_of_le (by norm_num) this
  have hφ : ∀ a b : ℝ, a * b = inner ℝ (id a) (id b) := fun a b => by simp [mul_comm]
  have hw1 : ∑ i, (lopsided h).weights i = 100 * (2 * h) := by
    rw [Fin.sum_univ_add]; simp [lopsided]; ring
  refine ⟨rowTree_contract, hpos, ?_, ?_⟩
  · obtain ⟨rounds, f, q, h1, h2, -, h3, h4, h5⟩ := C58_error big (fun a b : ℝ => a * b) linear_psd (2 * h) (by omega) (by omega)
      (herdingBaseU big (fun a b : ℝ => a * b) false bs size) false {x : ℝ | x * x ≤ 1} (Real.sqrt_nonneg _) hbase (rowTree ℝ ℝ) rowTree_contract
      (N := 2 * h + 2 * h) (by omega) (lopsided h) (fun t => (hpos t).le) (by simp) hS
      (C22_enough_rows (2 * h) (rowTree ℝ ℝ) rowTree_contract (lopsided h) hpos (by omega))
    obtain ⟨r, b, e, g1, g2, -, -, g4⟩ := h5 bs hbs
    refine ⟨f, rounds, r, h2, g1, ?_⟩
    have hb3 : (rounds : ℝ) ≤ 3 := by
      have : (2 * h + 2 * h - 1) / (2 * h / 2) = 3 := (Nat.div_eq_iff (by omega)).2 (by omega)
      rw [this] at h1
      have h6 : Nat.log 2 3 = 1 := by decide +kernel
      rw [h6] at h1
      exact_mod_cast h1
    have hmass : ∀ i, (∑ j, if q j = q i then (lopsided h).weights j else 0) = if (i : ℕ) < 2 * h then 99 * (2 * h : ℝ) else 2 * h := by
      intro i
      simp only [lopsided_leafMap hh0 q h3]
      rw [Fin.sum_univ_add]
      by_cases hi : (i : ℕ) < 2 * h
      · simp [lopsided, hi]; ring
      · simp [lopsided, hi]
    have hbal : balanced q (lopsided h).weights = fun _ => 1 / (2 * h : ℝ) := by
      funext i
      rw [balanced, hmass]
      by_cases hi : (i : ℕ) < 2 * h
      · simp only [lopsided, hi, if_true]; field_simp
      · simp only [lopsided, hi, if_false]
    have hB : ∑ i, balanced q (lopsided h).weights i ≠ 0 := by
      rw [sum_balanced q _ h4, hL]; norm_num
    have hval := (C07_rkhs_distance big (fun a b : ℝ => a * b) linear_psd (NeZero.pos _) (NeZero.pos _) (lopsided h)
      ⟨(lopsided h).data, balanced q (lopsided h).weights⟩ (by rw [hw1]; positivity) hB bs hbs).2 ℝ _ _ id hφ
    rw [hval] at g2
    have hbv : b = 98 / 100 := by
      rw [← Except.ok.inj g2]
      have e1 : meanEmbedding id (lopsided h).data (lopsided h).weights = 98 / 100 := by
        unfold meanEmbedding
        rw [hw1, Fin.sum_univ_add]
        simp [lopsided]
        field_simp
        ring
      have e2 : meanEmbedding id (lopsided h).data (balanced q (lopsided h).weights) = 0 := by
        rw [hbal]
        unfold meanEmbedding
        rw [Fin.sum_univ_add, Fin.sum_univ_add]
        simp [lopsided]
      simp only [e1, e2]
      norm_num
    have h6 := (abs_le.1 g4).1
    have h7 : (rounds : ℝ) * Real.sqrt (1 / size) ≤ 3 * (1 / 8) := mul_le_mul hb3 heps (Real.sqrt_nonneg _) (by norm_num)
    rw [hbv] at h6
    linarith
  · obtain ⟨f, h1, -, h3⟩ := hbase _ (lopsided h) (fun t => (hpos t).le) (by simp) (posCount_of_pos hpos (by omega)) hS
    refine ⟨f, _, h1, C07_compute big (fun a b : ℝ => a * b) (NeZero.pos _) (NeZero.pos size) (lopsided h) ⟨fun t => (lopsided h).data (f t), fun _ => 1⟩
      (by rw [hw1]; positivity) (by simp [NeZero.ne size]) bs hbs, ?_⟩
    refine le_trans (Real.sqrt_le_iff.2 ⟨Real.sqrt_nonneg _, max_le (by positivity) h3⟩) heps

example := C58_weights_lost 1000 (.leaf none) (.inl rfl) 64 100 (by norm_num) (by norm_num)

/-- Seventeen rows in four leaves of five, three rows of padding, herding to two points with the linear kernel. -/
example := C58_error 1000 (fun a b : ℝ => a * b) (isPSD_rankOne fun x => x) 6 (by norm_num) (by norm_num) (herdingBaseU 1000 (fun a b : ℝ => a * b) true (.leaf none) 2) true
  {x : ℝ | x * x ≤ 256} (Real.sqrt_nonneg (256 / (2 : ℕ))) (C58_herding_base 1000 _ (isPSD_rankOne fun x => x) true (.leaf none) (.inl rfl) 2 (by norm_num) 256) (rowTree ℝ ℝ) rowTree_contract (N := 17) (by norm_num)
  ⟨fun i => (i : ℝ), fun _ => 1⟩ (fun _ => by norm_num) (fun _ => ⟨1, by norm_num, fun _ => .inr rfl⟩)
  (fun t _ => by
    have h : ((t : ℕ) : ℝ) ≤ 16 := by exact_mod_cast Nat.le_of_lt_succ t.2
    have h0 : (0 : ℝ) ≤ (t : ℕ) := Nat.cast_nonneg _
    simp only [Set.mem_ofPred_eq]
    nlinarith)
  (C22_enough_rows (size := 2) 6 (rowTree ℝ ℝ) rowTree_contract _ (fun _ => by norm_num) (by decide +kernel))

end Coreax
