import Verif.Model.Examples
import Verif.Model.MapReduce
import Verif.Lemmas.Median
import Verif.Props.Median
import Mathlib.Algebra.Order.Floor.Ring
import Mathlib.Algebra.Order.Floor.Semifield
import Mathlib.Tactic.FinCases

/-!
# C79: the image of David
-/

namespace Coreax

open Finset

/-- Numbers with a significand of 53 bits and any exponent. -/
def Spec.IsDouble (y : ℝ) : Prop := ∃ (m e : ℤ), |m| ≤ 2 ^ 53 ∧ y = m * (2 : ℝ) ^ e

/-- `y` is `x` rounded to nearest (in one of the ways, if there are two). -/
def Spec.Nearest (x y : ℝ) : Prop := Spec.IsDouble y ∧ ∀ z, Spec.IsDouble z → |x - y| ≤ |x - z|

open Spec

/-! ## The pixels -/

namespace David

theorem maskSelect_eq {α : Type*} {h w : ℕ} (image : Fin h → Fin w → α) (mask : Fin h → Fin w → Bool) :
    maskSelect image mask = (nonzero2 mask).map fun p => image p.1 p.2 := by
  simp [maskSelect, nonzero2, List.map_flatMap, Function.comp_def]

theorem zip_map_self {α β : Type*} (l : List α) (f : α → β) : l.zip (l.map f) = l.map fun a => (a, f a) := by
  induction l with
  | nil => rfl
  | cons a l ih => simp [ih]

theorem pixelTable_eq {h w : ℕ} (image : Fin h → Fin w → ℕ) :
    pixelTable image = (nonzero2 fun r c => decide (image r c < 255)).map fun p => (p, image p.1 p.2) := by
  unfold pixelTable
  rw [maskSelect_eq, zip_map_self]

theorem mem_nonzero2 {h w : ℕ} (mask : Fin h → Fin w → Bool) (p : Fin h × Fin w) : p ∈ nonzero2 mask ↔ mask p.1 p.2 = true := by
  obtain ⟨r, c⟩ := p
  simp [nonzero2]

theorem nonzero2_sorted {h w : ℕ} (mask : Fin h → Fin w → Bool) :
    (nonzero2 mask).Pairwise fun a b => a.1 < b.1 ∨ a.1 = b.1 ∧ a.2 < b.2 := by
  unfold nonzero2
  rw [List.pairwise_flatMap]
  constructor
  · intro r _
    rw [List.pairwise_map]
    exact ((List.sortedLT_finRange w).pairwise.filter _).imp fun h => Or.inr ⟨rfl, h⟩
  · refine (List.sortedLT_finRange h).pairwise.imp fun {r r'} hr a ha b hb => ?_
    simp only [List.mem_map, List.mem_filter, List.mem_finRange, true_and] at ha hb
    obtain ⟨c, _, rfl⟩ := ha
    obtain ⟨c', _, rfl⟩ := hb
    exact Or.inl hr

end David

/-- The table has exactly one row for each pixel that is not white, in row-major order, with the value of that pixel. -/
theorem C79_pixels {h w : ℕ} (image : Fin h → Fin w → ℕ) :
    (∀ r c v, ((r, c), v) ∈ pixelTable image ↔ image r c = v ∧ v < 255) ∧
    (pixelTable image).Nodup ∧
    (pixelTable image).length = #{p : Fin h × Fin w | image p.1 p.2 < 255} ∧
    (pixelTable image).Pairwise fun a b => a.1.1 < b.1.1 ∨ a.1.1 = b.1.1 ∧ a.1.2 < b.1.2 := by
  have hs := David.nonzero2_sorted fun r c => decide (image r c < 255)
  have hn : (nonzero2 fun r c => decide (image r c < 255)).Nodup :=
    hs.imp fun {a b} h hab => by subst hab; rcases h with h | h <;> simp at h
  rw [David.pixelTable_eq]
  refine ⟨fun r c v => ?_, ?_, ?_, ?_⟩
  · simp only [List.mem_map, Prod.mk.injEq]
    constructor
    · rintro ⟨p, hp, rfl, rfl⟩
      rw [David.mem_nonzero2] at hp
      exact ⟨rfl, by simpa using hp⟩
    · rintro ⟨rfl, hv⟩
      exact ⟨(r, c), by rw [David.mem_nonzero2]; simpa using hv, rfl, rfl⟩
  · exact hn.map fun a b h => (Prod.mk.inj h).1
  · rw [List.length_map, ← List.toFinset_card_of_nodup hn]
    congr 1
    ext p
    simp [David.mem_nonzero2]
  · rw [List.pairwise_map]
    exact hs

example : pixelTable (![![255, 7], ![0, 255], ![9, 254]] : Fin 3 → Fin 2 → ℕ) =
    [((0, 1), 7), ((1, 0), 0), ((2, 0), 9), ((2, 1), 254)] := by decide +kernel

/-! ## The sizes -/

/-- The sizes for a downsampling factor: from 23 on there are fewer than two samples, so that the length scale is NaN; from 90 on
the coreset size is zero; a block size of zero (from 32 on) acts as one; the leaf size exceeds the coreset size up to 126. -/
theorem C79_sizes {f n : ℕ} (hf : 1 ≤ f) (hn : 2 ≤ n) :
    ((∃ rows : Fin (davidSizes n f).2.2.1 → Vec 3, davidLengthScale rows = none) ↔ 23 ≤ f) ∧
    ((∀ rows : Fin (davidSizes n f).2.2.1 → Vec 3, davidLengthScale rows = none) ↔ 23 ≤ f) ∧
    ((davidSizes n f).2.1 = 0 ↔ 90 ≤ f) ∧
    ((davidSizes n f).1 = 0 ↔ 32 ≤ f) ∧
    (∀ m, 32 ≤ f → effBlock m (some ((davidSizes n f).1 : ℤ)) = effBlock m (some 1)) ∧
    (mrCheckInit ((davidSizes n f).2.2.2 : ℕ) (some ((davidSizes n f).2.1 : ℕ)) = .ok () ↔ f ≤ 126) ∧
    (davidSizes n f).2.2.1 ≤ n := by
  have hpos : 0 < f ^ 2 := by positivity
  have hdiv : ∀ a b : ℕ, b ≤ a / f ^ 2 ↔ b * f ^ 2 ≤ a := fun a b => Nat.le_div_iff_mul_le hpos
  have hsq : ∀ a b c : ℕ, c * (b * b) ≤ a → a < c * ((b + 1) * (b + 1)) → (c * f ^ 2 ≤ a ↔ f ≤ b) := by
    intro a b c h1 h2
    constructor
    · intro h
      by_contra hlt
      have h3 : b + 1 ≤ f := by omega
      have h4 := Nat.mul_le_mul_left c (Nat.mul_le_mul h3 h3)
      rw [pow_two] at h
      omega
    · intro h
      have := Nat.mul_le_mul_left c (Nat.mul_le_mul h h)
      rw [pow_two]
      omega
  have hnan : ∀ rows : Fin (davidSizes n f).2.2.1 → Vec 3, davidLengthScale rows = none ↔ 23 ≤ f := by
    intro rows
    unfold davidLengthScale
    rw [Option.map_eq_none_iff, C43_nan_iff]
    have h1 := (hdiv 1000 2).trans (hsq 1000 22 2 (by norm_num) (by norm_num))
    simp only [davidSizes]
    omega
  have hz : ∀ a b : ℕ, b * b ≤ a → a < (b + 1) * (b + 1) → (a / f ^ 2 = 0 ↔ b + 1 ≤ f) := by
    intro a b h1 h2
    have := (hdiv a 1).trans (hsq a b 1 (by rwa [one_mul]) (by rwa [one_mul]))
    generalize a / f ^ 2 = x at this ⊢
    omega
  refine ⟨⟨fun ⟨r, hr⟩ => (hnan r).1 hr, fun h => ⟨0, (hnan 0).2 h⟩⟩, ⟨fun h => (hnan 0).1 (h 0), fun h r => (hnan r).2 h⟩,
    hz 8000 89 (by norm_num) (by norm_num), hz 1000 31 (by norm_num) (by norm_num), fun m h => ?_, ?_, min_le_left _ _⟩
  · have : 1000 / f ^ 2 = 0 := (hz 1000 31 (by norm_num) (by norm_num)).2 h
    simp [davidSizes, this, effBlock]
  · have h1 := hz 16000 126 (by norm_num) (by norm_num)
    have h2 : 2 * (8000 / f ^ 2) ≤ 16000 / f ^ 2 := by
      rw [Nat.le_div_iff_mul_le hpos, mul_assoc]
      have := Nat.div_mul_le_self 8000 (f ^ 2)
      omega
    have h3 : 16000 / f ^ 2 = 0 → 8000 / f ^ 2 = 0 := by omega
    change (if ((16000 / f ^ 2 : ℕ) : ℤ) ≤ ((8000 / f ^ 2 : ℕ) : ℤ) then Except.error Err.valueError else Except.ok ()) = _ ↔ _
    by_cases hc : 16000 / f ^ 2 ≤ 8000 / f ^ 2
    · rw [if_pos (by exact_mod_cast hc)]
      simp only [reduceCtorEq, false_iff]
      omega
    · rw [if_neg (by exact_mod_cast hc)]
      simp only [true_iff]
      omega

example := C79_sizes (f := 10) (n := 20000) (by norm_num) (by norm_num)

/-- The entries of a pixel as a row of the data. -/
def Spec.pixelRow {h w : ℕ} (p : (Fin h × Fin w) × ℕ) : Vec 3 := ![(p.1.1 : ℕ), (p.1.2 : ℕ), (p.2 : ℕ)]

theorem David.one_le_sqDist {h w : ℕ} {p q : (Fin h × Fin w) × ℕ} (hget : p ≠ q) : 1 ≤ sqDist (pixelRow p) (pixelRow q) := by
  rw [sqDist_eq, Fin.sum_univ_three]
  obtain ⟨⟨r, c⟩, u⟩ := p
  obtain ⟨⟨r', c'⟩, u'⟩ := q
  simp only [pixelRow, Matrix.cons_val_zero, Matrix.cons_val_one, Matrix.cons_val_two, Matrix.head_cons, Matrix.tail_cons,
    Matrix.cons_val]
  have key : (1 : ℤ) ≤ ((r : ℕ) - (r' : ℕ) : ℤ) ^ 2 + ((c : ℕ) - (c' : ℕ) : ℤ) ^ 2 + ((u : ℤ) - (u' : ℤ)) ^ 2 := by
    by_contra hlt
    have h0 : ((r : ℕ) - (r' : ℕ) : ℤ) ^ 2 + ((c : ℕ) - (c' : ℕ) : ℤ) ^ 2 + ((u : ℤ) - (u' : ℤ)) ^ 2 ≤ 0 := by omega
    have e1 : ((r : ℕ) - (r' : ℕ) : ℤ) = 0 := by
      apply pow_eq_zero_iff (two_ne_zero) |>.1
      nlinarith [sq_nonneg ((r : ℕ) - (r' : ℕ) : ℤ), sq_nonneg ((c : ℕ) - (c' : ℕ) : ℤ), sq_nonneg ((u : ℤ) - (u' : ℤ))]
    have e2 : ((c : ℕ) - (c' : ℕ) : ℤ) = 0 := by
      apply pow_eq_zero_iff (two_ne_zero) |>.1
      nlinarith [sq_nonneg ((r : ℕ) - (r' : ℕ) : ℤ), sq_nonneg ((c : ℕ) - (c' : ℕ) : ℤ), sq_nonneg ((u : ℤ) - (u' : ℤ))]
    have e3 : ((u : ℤ) - (u' : ℤ)) = 0 := by
      apply pow_eq_zero_iff (two_ne_zero) |>.1
      nlinarith [sq_nonneg ((r : ℕ) - (r' : ℕ) : ℤ), sq_nonneg ((c : ℕ) - (c' : ℕ) : ℤ), sq_nonneg ((u : ℤ) - (u' : ℤ))]
    apply hget
    have f1 : r = r' := Fin.ext (by omega)
    have f2 : c = c' := Fin.ext (by omega)
    have f3 : u = u' := by omega
    rw [f1, f2, f3]
  exact_mod_cast key

/-- The replacement of a small length scale is never used: for two or more distinct pixels it is at least `sqrt(1/2)`. -/
theorem C79_length_scale {h w m : ℕ} (hm : 2 ≤ m) (image : Fin h → Fin w → ℕ) (idx : Fin m → Fin (pixelTable image).length)
    (hidx : Function.Injective idx) :
    ∃ l, davidLengthScale (fun t => pixelRow ((pixelTable image).get (idx t))) = some l ∧
      medianHeuristic (fun t => pixelRow ((pixelTable image).get (idx t))) = some l ∧ Real.sqrt (1 / 2) ≤ l := by
  set x : Fin m → Vec 3 := fun t => pixelRow ((pixelTable image).get (idx t)) with hx
  have hne := (pairDistances_ne_nil_iff x).2 hm
  have hlen : 0 < (pairDistances x).length := List.length_pos_iff.2 hne
  have hge : ∀ v ∈ pairDistances x, (1 : ℝ) ≤ v := by
    intro v hv
    simp only [pairDistances, List.mem_flatMap, List.mem_map, List.mem_filter, List.mem_finRange, true_and,
      decide_eq_true_eq] at hv
    obtain ⟨i, j, hij, rfl⟩ := hv
    have hget : (pixelTable image).get (idx i) ≠ (pixelTable image).get (idx j) := fun he =>
      absurd (hidx ((List.nodup_iff_injective_get.1 (C79_pixels image).2.1) he)) (ne_of_lt hij)
    exact David.one_le_sqDist hget
  have hmid : ∀ k, k < (pairDistances x).length → (1 : ℝ) ≤ ((pairDistances x).mergeSort (· ≤ ·)).getD k 0 := by
    intro k hk
    have hk' : k < ((pairDistances x).mergeSort (· ≤ ·)).length := by rwa [List.length_mergeSort]
    rw [List.getD_eq_getElem _ _ hk']
    exact hge _ (List.mem_mergeSort.1 (List.getElem_mem hk'))
  have h1 : (1 : ℝ) ≤ lowMid (pairDistances x) := hmid _ (by omega)
  have h2 : (1 : ℝ) ≤ highMid (pairDistances x) := hmid _ (by omega)
  have hmed : medianHeuristic x = some (Real.sqrt ((lowMid (pairDistances x) + highMid (pairDistances x)) / 2 / 2)) := by
    rw [medianHeuristic, medianOf_eq hne]
    rfl
  have hle : Real.sqrt (1 / 2) ≤ Real.sqrt ((lowMid (pairDistances x) + highMid (pairDistances x)) / 2 / 2) :=
    Real.sqrt_le_sqrt (by linarith)
  have hhalf : (1 / 2 : ℝ) ≤ Real.sqrt (1 / 2) := Real.le_sqrt_of_sq_le (by norm_num)
  refine ⟨_, ?_, hmed, hle⟩
  unfold davidLengthScale
  rw [hmed, Option.map_some, if_neg]
  have : (1 : ℝ) / 10 ^ 6 ≤ 1 / 2 := by norm_num
  linarith

example := C79_length_scale (h := 1) (w := 2) (m := 2) le_rfl ![![3, 3]] (Fin.cast (by decide +kernel)) (Fin.cast_injective _)

/-! ## The size of the image -/

/-- With relative rounding errors up to `u` and sides that are short compared to `1 / u`, a side of the downsampled image is the side
divided by the factor and rounded down, except that it may be one less if the factor divides it. -/
theorem C79_downsample {mul div : ℝ → ℝ → ℝ} {u : ℝ} {w f : ℕ} (hf : 1 ≤ f) (hu : 0 ≤ u)
    (hdiv : ∃ δ, |δ| ≤ u ∧ div 1 f = 1 / f * (1 + δ)) (hmul : ∃ δ, |δ| ≤ u ∧ mul w (div 1 f) = w * div 1 f * (1 + δ))
    (hw : w * (2 * u + u ^ 2) < 1) :
    (¬ f ∣ w → downsampleDim mul div w f = (w / f : ℕ)) ∧
    (f ∣ w → downsampleDim mul div w f = (w / f : ℕ) ∨ downsampleDim mul div w f = (w / f : ℕ) - 1) := by
  obtain ⟨δ, hδ, hd⟩ := hdiv
  obtain ⟨ε, hε, hm⟩ := hmul
  have hf' : (0 : ℝ) < f := by exact_mod_cast hf
  set t := (1 + δ) * (1 + ε) - 1 with ht
  have htb : |t| ≤ 2 * u + u ^ 2 := by
    have : t = δ + ε + δ * ε := by rw [ht]; ring
    rw [this]
    have h1 := abs_add_le (δ + ε) (δ * ε)
    have h2 := abs_add_le δ ε
    have h3 : |δ * ε| ≤ u * u := by rw [abs_mul]; exact mul_le_mul hδ hε (abs_nonneg _) hu
    nlinarith
  have hval : mul w (div 1 f) = w / f * (1 + t) := by rw [hm, hd, ht]; ring
  have herr : |(w : ℝ) * t| < 1 := by
    rw [abs_mul, Nat.abs_cast]
    exact lt_of_le_of_lt (mul_le_mul_of_nonneg_left htb (Nat.cast_nonneg _)) hw
  have hmod : (w : ℝ) = f * (w / f : ℕ) + (w % f : ℕ) := by exact_mod_cast (Nat.div_add_mod w f).symm
  have hfv : (f : ℝ) * mul w (div 1 f) = w + w * t := by rw [hval]; field_simp
  obtain ⟨hl, hr⟩ := abs_lt.1 herr
  have hmodlt : w % f < f := Nat.mod_lt _ hf
  have hmodlt' : ((w % f : ℕ) : ℝ) + 1 ≤ f := by exact_mod_cast hmodlt
  have hup : mul w (div 1 f) < (w / f : ℕ) + 1 := by
    by_contra h
    have := mul_le_mul_of_nonneg_left (not_lt.1 h) hf'.le
    nlinarith
  unfold downsampleDim
  generalize w / f = q at *
  constructor
  · intro hnd
    have h1 : 1 ≤ w % f := Nat.one_le_iff_ne_zero.2 fun h => hnd (Nat.dvd_of_mod_eq_zero h)
    have h1' : (1 : ℝ) ≤ (w % f : ℕ) := by exact_mod_cast h1
    rw [Int.floor_eq_iff]
    refine ⟨?_, by exact_mod_cast hup⟩
    by_contra h
    have := mul_lt_mul_of_pos_left (not_le.1 h) hf'
    push_cast at this
    nlinarith
  · intro hdvd
    have h0 : w % f = 0 := Nat.mod_eq_zero_of_dvd hdvd
    rw [h0] at hmod
    have hlow : (q : ℝ) - 1 ≤ mul w (div 1 f) := by
      by_contra h
      have := mul_lt_mul_of_pos_left (not_le.1 h) hf'
      have hf1 : (1 : ℝ) ≤ f := by exact_mod_cast hf
      push_cast at hmod this
      nlinarith
    by_cases hc : (q : ℝ) ≤ mul w (div 1 f)
    · left
      rw [Int.floor_eq_iff]
      exact ⟨by exact_mod_cast hc, by exact_mod_cast hup⟩
    · right
      rw [Int.floor_eq_iff]
      push_cast at hc hlow ⊢
      exact ⟨hlow, by linarith⟩

example := C79_downsample (mul := (· * ·)) (div := (· / ·)) (u := 1 / 2 ^ 53) (w := 1000) (f := 3) (by norm_num) (by norm_num)
  ⟨0, by norm_num, by norm_num⟩ ⟨0, by norm_num, by norm_num⟩ (by norm_num)

namespace David

/-- The double nearest to `1 / 49`. -/
noncomputable def r49 : ℝ := 5882252574524729 * (2 : ℝ) ^ (-58 : ℤ)

theorem zpow58 : (2 : ℝ) ^ (-58 : ℤ) = 1 / 288230376151711744 := by norm_num

/-- A double above `2 ^ (52 + k)` is a multiple of `2 ^ k`. -/
theorem double_near {z : ℝ} {k : ℤ} (hz : IsDouble z) (hc : (2 : ℝ) ^ (52 + k) < z) : ∃ j : ℤ, z = j * (2 : ℝ) ^ k := by
  obtain ⟨m, e, hm, rfl⟩ := hz
  by_cases he : k ≤ e
  · refine ⟨m * 2 ^ (e - k).toNat, ?_⟩
    have : (2 : ℝ) ^ e = (2 : ℝ) ^ (e - k).toNat * (2 : ℝ) ^ k := by
      rw [← zpow_natCast, ← zpow_add₀ two_ne_zero, Int.toNat_of_nonneg (by omega)]
      congr 1
      omega
    push_cast
    rw [this]
    ring
  · exfalso
    have h1 : (m : ℝ) ≤ 2 ^ 53 := by exact_mod_cast (le_abs_self m).trans hm
    have h2 : (2 : ℝ) ^ e ≤ (2 : ℝ) ^ (k - 1) := zpow_le_zpow_right₀ one_le_two (by omega)
    have h3 : (m : ℝ) * (2 : ℝ) ^ e ≤ 2 ^ 53 * (2 : ℝ) ^ (k - 1) :=
      mul_le_mul h1 h2 (by positivity) (by positivity)
    have h4 : (2 : ℝ) ^ 53 * (2 : ℝ) ^ (k - 1) = (2 : ℝ) ^ (52 + k) := by
      rw [← zpow_natCast, ← zpow_add₀ two_ne_zero]
      congr 1
      push_cast
      ring
    linarith

theorem isDouble_r49 : IsDouble r49 := ⟨5882252574524729, -58, by norm_num, by unfold r49; norm_num⟩

theorem near_r49 {z : ℝ} (hz : IsDouble z) (h : |1 / 49 - z| ≤ |1 / 49 - r49|) : z = r49 := by
  have hr : |1 / 49 - r49| = 23 / (49 * 288230376151711744) := by
    unfold r49
    rw [zpow58, abs_of_pos] <;> norm_num
  rw [hr] at h
  obtain ⟨h1, h2⟩ := abs_le.1 h
  obtain ⟨j, rfl⟩ := double_near (k := -58) hz (by norm_num; norm_num at h2; linarith)
  rw [zpow58] at h1 h2
  have h3 : (j : ℝ) < 5882252574524730 := by
    norm_num at h1
    linarith
  have h4 : (5882252574524728 : ℝ) < j := by
    norm_num at h2
    linarith
  have h3' : j < 5882252574524730 := by exact_mod_cast h3
  have h4' : 5882252574524728 < j := by exact_mod_cast h4
  have : j = 5882252574524729 := by omega
  subst this
  unfold r49
  norm_num

theorem nearest_r49 : Nearest (1 / 49) r49 := ⟨isDouble_r49, fun z hz => by
  by_contra h
  have := near_r49 hz (not_le.1 h).le
  rw [this] at h
  exact h le_rfl⟩

/-- The number before one. -/
theorem isDouble_pred : IsDouble (1 - 1 / 2 ^ 53) := ⟨2 ^ 53 - 1, -53, by norm_num, by norm_num⟩

theorem nearest_pred : Nearest (49 * r49) (1 - 1 / 2 ^ 53) := by
  refine ⟨isDouble_pred, fun z hz => ?_⟩
  have hv : 49 * r49 = 1 - 23 / 288230376151711744 := by unfold r49; rw [zpow58]; norm_num
  rw [hv]
  by_contra hlt
  have hr : |1 - 23 / 288230376151711744 - (1 - 1 / 2 ^ 53 : ℝ)| = 9 / 288230376151711744 := by
    rw [abs_of_pos] <;> norm_num
  rw [hr] at hlt
  obtain ⟨h1, h2⟩ := abs_lt.1 (not_le.1 hlt)
  obtain ⟨j, rfl⟩ := double_near (k := -53) hz (by norm_num; norm_num at h2; linarith)
  have h53 : (2 : ℝ) ^ (-53 : ℤ) = 1 / 9007199254740992 := by norm_num
  rw [h53] at h1 h2
  have h3 : (j : ℝ) < 9007199254740992 := by linarith
  have h4 : (9007199254740991 : ℝ) < j := by linarith
  have h3' : j < 9007199254740992 := by exact_mod_cast h3
  have h4' : 9007199254740991 < j := by exact_mod_cast h4
  omega

end David

/-- The exception is real: with operations rounded to nearest in double precision an image of 49 pixels downsampled by 49 has size
zero, not one. -/
theorem C79_downsample_zero {mul div : ℝ → ℝ → ℝ} (hdiv : Nearest (1 / (49 : ℕ)) (div 1 (49 : ℕ)))
    (hmul : Nearest ((49 : ℕ) * div 1 (49 : ℕ)) (mul (49 : ℕ) (div 1 (49 : ℕ)))) : downsampleDim mul div 49 49 = 0 := by
  have hd : div 1 (49 : ℕ) = David.r49 := David.near_r49 hdiv.1 (by
    have := hdiv.2 _ David.isDouble_r49
    push_cast at this ⊢
    exact this)
  unfold downsampleDim
  rw [hd] at hmul ⊢
  have hv : ((49 : ℕ) : ℝ) * David.r49 = 1 - 23 / 288230376151711744 := by unfold David.r49; rw [David.zpow58]; norm_num
  have h := hmul.2 _ David.isDouble_pred
  rw [hv] at h
  have hr : |1 - 23 / 288230376151711744 - (1 - 1 / 2 ^ 53 : ℝ)| = 9 / 288230376151711744 := by
    rw [abs_of_pos] <;> norm_num
  rw [hr] at h
  obtain ⟨h1, h2⟩ := abs_le.1 h
  rw [Int.floor_eq_iff]
  push_cast at h1 h2 ⊢
  constructor <;> linarith

example := C79_downsample_zero (mul := fun _ _ => 1 - 1 / 2 ^ 53) (div := fun _ _ => David.r49)
  (by push_cast; exact David.nearest_r49) (by push_cast; exact David.nearest_pred)

/-- A factor of one leaves the size as it is. -/
theorem C79_downsample_one {mul div : ℝ → ℝ → ℝ} {w : ℕ} (hw : w ≤ 2 ^ 53) (hdiv : Nearest (1 / (1 : ℕ)) (div 1 (1 : ℕ)))
    (hmul : Nearest (w * div 1 (1 : ℕ)) (mul w (div 1 (1 : ℕ)))) : downsampleDim mul div w 1 = w := by
  have hex : ∀ x y : ℝ, IsDouble x → Nearest x y → y = x := by
    intro x y hx h
    have := h.2 x hx
    rw [sub_self, abs_zero] at this
    have := abs_eq_zero.1 (le_antisymm this (abs_nonneg _))
    linarith
  have h1 : div 1 (1 : ℕ) = 1 := by
    have := hex _ _ ⟨1, 0, by norm_num, by norm_num⟩ hdiv
    rw [this]
    norm_num
  have h2 : mul w (div 1 (1 : ℕ)) = w := by
    have := hex _ _ ⟨w, 0, by rw [Nat.abs_cast]; exact_mod_cast hw, by rw [h1]; norm_num⟩ hmul
    rw [this, h1, mul_one]
  unfold downsampleDim
  rw [h2]
  exact Int.floor_natCast _

example := C79_downsample_one (mul := fun a _ => a) (div := fun _ _ => 1) (w := 640) (by norm_num)
  ⟨⟨1, 0, by norm_num, by norm_num⟩, fun z _ => by norm_num⟩ ⟨⟨640, 0, by norm_num, by norm_num⟩, fun z _ => by norm_num⟩

/-! ## The sizes of the markers -/

namespace David

/-- Linear interpolation of a monotone sequence is monotone. -/
theorem interp_mono {s : ℕ → ℝ} (hs : Monotone s) {v v' : ℝ} (hv : 0 ≤ v) (hvv : v ≤ v') :
    s ⌊v⌋₊ + (s (⌊v⌋₊ + 1) - s ⌊v⌋₊) * (v - ⌊v⌋₊) ≤ s ⌊v'⌋₊ + (s (⌊v'⌋₊ + 1) - s ⌊v'⌋₊) * (v' - ⌊v'⌋₊) := by
  have h1 := Nat.floor_le hv
  have h2 := Nat.lt_floor_add_one v
  have h3 := Nat.floor_le (hv.trans hvv)
  have h5 := hs (Nat.le_succ ⌊v⌋₊)
  have h6 := hs (Nat.le_succ ⌊v'⌋₊)
  rcases (Nat.floor_le_floor hvv).eq_or_lt with h | h
  · rw [← h]
    have : (s (⌊v⌋₊ + 1) - s ⌊v⌋₊) * (v - ⌊v⌋₊) ≤ (s (⌊v⌋₊ + 1) - s ⌊v⌋₊) * (v' - ⌊v⌋₊) :=
      mul_le_mul_of_nonneg_left (by linarith) (by simpa using h5)
    linarith
  · have h4 : s (⌊v⌋₊ + 1) ≤ s ⌊v'⌋₊ := hs h
    have h7 : (s (⌊v⌋₊ + 1) - s ⌊v⌋₊) * (v - ⌊v⌋₊) ≤ (s (⌊v⌋₊ + 1) - s ⌊v⌋₊) * 1 :=
      mul_le_mul_of_nonneg_left (by linarith) (by simpa using h5)
    have h8 : 0 ≤ (s (⌊v'⌋₊ + 1) - s ⌊v'⌋₊) * (v' - ⌊v'⌋₊) := mul_nonneg (by simpa using h6) (by linarith)
    linarith

/-- The sorted values, the last one repeated. -/
noncomputable def sorted (l : List ℝ) (k : ℕ) : ℝ := (l.mergeSort (· ≤ ·)).getD (min k (l.length - 1)) 0

theorem sorted_mono {l : List ℝ} (hl : l ≠ []) : Monotone (sorted l) := by
  intro a b hab
  have hlen : 0 < l.length := List.length_pos_iff.2 hl
  unfold sorted
  have ha : min a (l.length - 1) < (l.mergeSort (· ≤ ·)).length := by rw [List.length_mergeSort]; omega
  have hb : min b (l.length - 1) < (l.mergeSort (· ≤ ·)).length := by rw [List.length_mergeSort]; omega
  rw [List.getD_eq_getElem _ _ ha, List.getD_eq_getElem _ _ hb]
  rcases (show min a (l.length - 1) ≤ min b (l.length - 1) by omega).eq_or_lt with h | h
  · simp [h]
  · exact List.pairwise_iff_getElem.1 (sortedList l) _ _ ha hb h

theorem percentile_eq (l : List ℝ) (q : ℝ) : percentile l q =
    sorted l ⌊((l.length - 1 : ℕ) : ℝ) * (q / 100)⌋₊ +
      (sorted l (⌊((l.length - 1 : ℕ) : ℝ) * (q / 100)⌋₊ + 1) - sorted l ⌊((l.length - 1 : ℕ) : ℝ) * (q / 100)⌋₊) *
        (((l.length - 1 : ℕ) : ℝ) * (q / 100) - ⌊((l.length - 1 : ℕ) : ℝ) * (q / 100)⌋₊) := rfl

theorem percentile_mono {l : List ℝ} (hl : l ≠ []) {q q' : ℝ} (hq : 0 ≤ q) (hqq : q ≤ q') : percentile l q ≤ percentile l q' := by
  rw [percentile_eq, percentile_eq]
  exact interp_mono (sorted_mono hl) (by positivity) (mul_le_mul_of_nonneg_left (by linarith) (by positivity))

theorem percentile_zero (l : List ℝ) : percentile l 0 = sorted l 0 := by
  rw [percentile_eq]
  simp

theorem percentile_hundred (l : List ℝ) : percentile l 100 = sorted l (l.length - 1) := by
  rw [percentile_eq]
  simp

theorem sorted_mem {l : List ℝ} (hl : l ≠ []) (k : ℕ) : sorted l k ∈ l := by
  have hlen : 0 < l.length := List.length_pos_iff.2 hl
  unfold sorted
  have ha : min k (l.length - 1) < (l.mergeSort (· ≤ ·)).length := by rw [List.length_mergeSort]; omega
  rw [List.getD_eq_getElem _ _ ha]
  exact List.mem_mergeSort.1 (List.getElem_mem ha)

theorem exists_sorted {l : List ℝ} {x : ℝ} (hx : x ∈ l) : ∃ k ≤ l.length - 1, x = sorted l k := by
  obtain ⟨k, hk, rfl⟩ := List.getElem_of_mem ((List.mem_mergeSort (le := (· ≤ ·))).2 hx)
  rw [List.length_mergeSort] at hk
  refine ⟨k, by omega, ?_⟩
  unfold sorted
  rw [min_eq_left (by omega), List.getD_eq_getElem]

theorem sorted_zero_le {l : List ℝ} {x : ℝ} (hx : x ∈ l) : sorted l 0 ≤ x := by
  obtain ⟨k, _, rfl⟩ := exists_sorted hx
  exact sorted_mono (List.ne_nil_of_mem hx) (Nat.zero_le _)

theorem le_sorted_last {l : List ℝ} {x : ℝ} (hx : x ∈ l) : x ≤ sorted l (l.length - 1) := by
  obtain ⟨k, hk, rfl⟩ := exists_sorted hx
  exact sorted_mono (List.ne_nil_of_mem hx) hk

theorem min_clipped {w : List ℝ} (hw : w ≠ []) : (clippedWeights w).min? = some (percentile w 1) := by
  have hp := percentile_mono hw (q := 1) (q' := 99) (by norm_num) (by norm_num)
  rw [List.min?_eq_some_iff]
  constructor
  · unfold clippedWeights
    rw [List.mem_map]
    refine ⟨sorted w 0, sorted_mem hw 0, ?_⟩
    have := percentile_mono hw (q := 0) (q' := 1) le_rfl (by norm_num)
    rw [percentile_zero] at this
    rw [max_eq_right this, min_eq_left hp]
  · intro b hb
    unfold clippedWeights at hb
    rw [List.mem_map] at hb
    obtain ⟨x, _, rfl⟩ := hb
    exact le_min (le_max_right _ _) hp

theorem max_clipped {w : List ℝ} (hw : w ≠ []) : (clippedWeights w).max? = some (percentile w 99) := by
  rw [List.max?_eq_some_iff]
  constructor
  · unfold clippedWeights
    rw [List.mem_map]
    refine ⟨sorted w (w.length - 1), sorted_mem hw _, ?_⟩
    have := percentile_mono hw (q := 99) (q' := 100) (by norm_num) (by norm_num)
    rw [percentile_hundred] at this
    rw [min_eq_right (le_max_of_le_left this)]
  · intro b hb
    unfold clippedWeights at hb
    rw [List.mem_map] at hb
    obtain ⟨x, _, rfl⟩ := hb
    exact min_le_right _ _

theorem markerSizes_eq (scale minSize : ℝ) {w : List ℝ} (hw : w ≠ []) : markerSizes scale minSize w = w.map fun x =>
    if percentile w 99 - percentile w 1 = 0 then none else some (minSize + (scale ^ ((min (max x (percentile w 1)) (percentile w 99) -
      percentile w 1) / (percentile w 99 - percentile w 1)) - 1) * minSize) := by
  unfold markerSizes
  simp only [min_clipped hw, max_clipped hw, Option.getD_some]
  unfold clippedWeights
  rw [List.map_map]
  rfl

/-- The two percentiles are equal exactly if the values are, apart from a hundredth at either end. -/
theorem percentile_eq_iff {w : List ℝ} (hw : w ≠ []) :
    percentile w 1 = percentile w 99 ↔ sorted w ((w.length - 1) / 100) = sorted w (w.length - 1 - (w.length - 1) / 100) := by
  obtain ⟨N, hN⟩ : ∃ N, N = w.length - 1 := ⟨_, rfl⟩
  rw [← hN]
  have hs := sorted_mono hw
  have hf1 : ⌊((N : ℕ) : ℝ) * (1 / 100)⌋₊ = N / 100 := by
    rw [mul_one_div]
    exact_mod_cast Nat.floor_div_eq_div (K := ℝ) N 100
  have e1 : percentile w 1 = sorted w (N / 100) + (sorted w (N / 100 + 1) - sorted w (N / 100)) * ((N : ℝ) / 100 - (N / 100 : ℕ)) := by
    rw [percentile_eq, ← hN, hf1, mul_one_div]
  have hmod : (N : ℝ) = 100 * (N / 100 : ℕ) + (N % 100 : ℕ) := by exact_mod_cast (Nat.div_add_mod N 100).symm
  have hlt : ((N % 100 : ℕ) : ℝ) < 100 := by exact_mod_cast Nat.mod_lt N (by norm_num)
  have h0 : (0 : ℝ) ≤ (N % 100 : ℕ) := Nat.cast_nonneg _
  set a := N / 100 with ha
  set r := N % 100 with hr
  have hNa : N = 100 * a + r := (Nat.div_add_mod N 100).symm
  by_cases hr0 : r = 0
  · have e1' : percentile w 1 = sorted w a := by
      rw [e1, hmod, hr0]
      simp
    have e99 : percentile w 99 = sorted w (N - a) := by
      have : ((N : ℕ) : ℝ) * (99 / 100) = ((N - a : ℕ) : ℝ) := by
        rw [Nat.cast_sub (by omega), hmod, hr0]
        push_cast
        ring
      rw [percentile_eq, ← hN, this, Nat.floor_natCast]
      simp
    rw [e1', e99]
  · have hr1 : (1 : ℝ) ≤ r := by exact_mod_cast Nat.one_le_iff_ne_zero.2 hr0
    have hv : ((N : ℕ) : ℝ) * (99 / 100) = ((N - a - 1 : ℕ) : ℝ) + (1 - r / 100) := by
      rw [Nat.cast_sub (by omega), Nat.cast_sub (by omega), hmod]
      push_cast
      ring
    have hfl : ⌊((N : ℕ) : ℝ) * (99 / 100)⌋₊ = N - a - 1 := by
      rw [hv, Nat.floor_eq_iff (by have : (0 : ℝ) ≤ ((N - a - 1 : ℕ) : ℝ) := Nat.cast_nonneg _; linarith)]
      constructor <;> linarith
    have e99 : percentile w 99 = sorted w (N - a - 1) + (sorted w (N - a) - sorted w (N - a - 1)) * (1 - r / 100) := by
      rw [percentile_eq, ← hN, hfl, hv, add_sub_cancel_left, show N - a - 1 + 1 = N - a by omega]
    have e1' : percentile w 1 = sorted w a + (sorted w (a + 1) - sorted w a) * (r / 100) := by
      rw [e1, hmod]
      congr 2
      ring
    by_cases hsmall : N - a - 1 < a + 1
    · have hNe : N - a - 1 = a := by omega
      have hNe' : N - a = a + 1 := by omega
      have hN1 : N = 1 := by omega
      have ha0 : a = 0 := by omega
      have hr' : r = 1 := by omega
      rw [e1', e99, hNe, hNe', hr']
      constructor
      · intro h
        push_cast at h
        linarith
      · intro h
        rw [← h]
        ring
    · have m1 : sorted w a ≤ sorted w (a + 1) := hs (by omega)
      have m2 : sorted w (a + 1) ≤ sorted w (N - a - 1) := hs (by omega)
      have m3 : sorted w (N - a - 1) ≤ sorted w (N - a) := hs (by omega)
      rw [e1', e99]
      constructor
      · intro h
        have p1 : (sorted w (a + 1) - sorted w a) * (r / 100) ≤ (sorted w (a + 1) - sorted w a) * 1 :=
          mul_le_mul_of_nonneg_left (by linarith) (by linarith)
        have p2 : 0 ≤ (sorted w (N - a) - sorted w (N - a - 1)) * (1 - r / 100) :=
          mul_nonneg (by linarith) (by linarith)
        have q1 : (sorted w (a + 1) - sorted w a) * (1 - r / 100) = 0 := by linarith
        have q2 : (sorted w (N - a) - sorted w (N - a - 1)) * (1 - r / 100) = 0 := by linarith
        have hne : (1 - (r : ℝ) / 100) ≠ 0 := by
          intro h
          linarith
        have z1 := (mul_eq_zero.1 q1).resolve_right hne
        have z2 := (mul_eq_zero.1 q2).resolve_right hne
        rw [z1] at h
        linarith
      · intro h
        have z1 : sorted w (a + 1) = sorted w a := by linarith
        have z2 : sorted w (N - a - 1) = sorted w a := by linarith
        rw [z1, z2, ← h]
        ring

end David

/-- Marker sizes, if the percentiles differ: all between the least size and the scale times that, larger for larger weights, and
both ends are reached (by the least and the greatest weight). -/
theorem C79_marker_sizes {scale minSize : ℝ} (hscale : 1 < scale) (hmin : 0 < minSize) {w : List ℝ} (hw : w ≠ [])
    (hne : percentile w 1 ≠ percentile w 99) :
    ∃ size : ℝ → ℝ, markerSizes scale minSize w = w.map (fun x => some (size x)) ∧ Monotone size ∧
      (∀ x, minSize ≤ size x ∧ size x ≤ scale * minSize) ∧
      (∀ x ∈ w, (∀ y ∈ w, x ≤ y) → size x = minSize) ∧ (∀ x ∈ w, (∀ y ∈ w, y ≤ x) → size x = scale * minSize) ∧
      ∀ x y, percentile w 1 ≤ x → y ≤ percentile w 99 → x < y → size x < size y := by
  have hp := David.percentile_mono hw (q := 1) (q' := 99) (by norm_num) (by norm_num)
  have hpos : 0 < percentile w 99 - percentile w 1 := by
    have := lt_of_le_of_ne hp hne
    linarith
  set lo := percentile w 1 with hlo
  set hi := percentile w 99 with hhi
  have hs0 : 0 < scale := by linarith
  refine ⟨fun x => minSize + (scale ^ ((min (max x lo) hi - lo) / (hi - lo)) - 1) * minSize, ?_, ?_, ?_, ?_, ?_, ?_⟩
  · rw [David.markerSizes_eq scale minSize hw]
    refine List.map_congr_left fun x _ => ?_
    rw [if_neg hpos.ne']
  · intro x y hxy
    have h1 : (min (max x lo) hi - lo) / (hi - lo) ≤ (min (max y lo) hi - lo) / (hi - lo) :=
      div_le_div_of_nonneg_right (sub_le_sub_right (min_le_min_right _ (max_le_max_right _ hxy)) _) hpos.le
    have h2 := Real.rpow_le_rpow_of_exponent_le hscale.le h1
    have h3 := mul_le_mul_of_nonneg_right (sub_le_sub_right h2 1) hmin.le
    simp only
    linarith
  · intro x
    have h0 : 0 ≤ (min (max x lo) hi - lo) / (hi - lo) :=
      div_nonneg (sub_nonneg.2 (le_min (le_max_right _ _) hp)) hpos.le
    have h1 : (min (max x lo) hi - lo) / (hi - lo) ≤ 1 :=
      (div_le_one hpos).2 (sub_le_sub_right (min_le_right _ _) _)
    have h2 := Real.one_le_rpow hscale.le h0
    have h3 := Real.rpow_le_rpow_of_exponent_le hscale.le h1
    rw [Real.rpow_one] at h3
    have h4 := mul_le_mul_of_nonneg_right (sub_le_sub_right h3 1) hmin.le
    have h5 : 0 ≤ (scale ^ ((min (max x lo) hi - lo) / (hi - lo)) - 1) * minSize := mul_nonneg (by linarith) hmin.le
    simp only
    constructor <;> linarith
  · intro x hx hall
    have h1 : x ≤ lo := (hall _ (David.sorted_mem hw 0)).trans (by
      rw [← David.percentile_zero]
      exact David.percentile_mono hw le_rfl (by norm_num))
    simp only
    rw [max_eq_right h1, min_eq_left hp, sub_self, zero_div, Real.rpow_zero, sub_self, zero_mul, add_zero]
  · intro x hx hall
    have h1 : hi ≤ x := le_trans (by
      rw [← David.percentile_hundred]
      exact David.percentile_mono hw (by norm_num) (by norm_num)) (hall _ (David.sorted_mem hw (w.length - 1)))
    simp only
    rw [min_eq_right (le_max_of_le_left h1), div_self hpos.ne', Real.rpow_one]
    ring
  · intro x y hx hy hxy
    simp only
    rw [max_eq_left hx, max_eq_left (hx.trans hxy.le), min_eq_left (hxy.le.trans hy), min_eq_left hy]
    have h1 : (x - lo) / (hi - lo) < (y - lo) / (hi - lo) := div_lt_div_of_pos_right (by linarith) hpos
    have h2 := Real.rpow_lt_rpow_of_exponent_lt hscale h1
    have h3 := mul_lt_mul_of_pos_right (sub_lt_sub_right h2 1) hmin
    linarith

/-- All marker sizes are NaN exactly if the weights are equal apart from a hundredth of them (rounded down) at either end of the sorted
weights. -/
theorem C79_marker_nan (scale minSize : ℝ) {w : List ℝ} (hw : w ≠ []) :
    ((∃ x ∈ markerSizes scale minSize w, x = none) ↔ ∀ x ∈ markerSizes scale minSize w, x = none) ∧
    ((∀ x ∈ markerSizes scale minSize w, x = none) ↔ ∃ a b c : List ℝ, ∃ v : ℝ,
      w.Perm (a ++ b ++ c) ∧ a.length = (w.length - 1) / 100 ∧ c.length = (w.length - 1) / 100 ∧
      (∀ x ∈ a, x ≤ v) ∧ (∀ x ∈ b, x = v) ∧ (∀ x ∈ c, v ≤ x)) := by
  have hnone : (∀ x ∈ markerSizes scale minSize w, x = none) ↔ percentile w 1 = percentile w 99 := by
    rw [David.markerSizes_eq scale minSize hw]
    constructor
    · intro h
      by_contra hc
      obtain ⟨x, hx⟩ := List.exists_mem_of_ne_nil w hw
      have := h _ (List.mem_map.2 ⟨x, hx, rfl⟩)
      rw [if_neg (sub_ne_zero.2 (Ne.symm hc))] at this
      exact absurd this (by simp)
    · intro h x hx
      rw [List.mem_map] at hx
      obtain ⟨y, _, rfl⟩ := hx
      rw [if_pos (sub_eq_zero.2 h.symm)]
  refine ⟨⟨fun ⟨x, hx, he⟩ => hnone.2 ?_, fun h => ?_⟩, hnone.trans ((David.percentile_eq_iff hw).trans ?_)⟩
  · by_contra hc
    rw [David.markerSizes_eq scale minSize hw, List.mem_map] at hx
    obtain ⟨y, _, rfl⟩ := hx
    rw [if_neg (sub_ne_zero.2 (Ne.symm hc))] at he
    exact absurd he (by simp)
  · have hm : markerSizes scale minSize w ≠ [] := by
      rw [David.markerSizes_eq scale minSize hw]
      simpa using hw
    obtain ⟨y, hy⟩ := List.exists_mem_of_ne_nil _ hm
    exact ⟨y, hy, h y hy⟩
  · have hlen : 0 < w.length := List.length_pos_iff.2 hw
    obtain ⟨k, hk⟩ : ∃ k, k = (w.length - 1) / 100 := ⟨_, rfl⟩
    have hk2 : 2 * k ≤ w.length - 1 := by omega
    rw [← hk]
    have hget : ∀ i, i ≤ w.length - 1 → ∀ h : i < (w.mergeSort (· ≤ ·)).length, (w.mergeSort (· ≤ ·))[i] = David.sorted w i := by
      intro i hi h
      unfold David.sorted
      rw [min_eq_left hi, List.getD_eq_getElem _ _ h]
    have hml : (w.mergeSort (· ≤ ·)).length = w.length := List.length_mergeSort _
    have hmono := David.sorted_mono hw
    constructor
    · intro h
      set s := w.mergeSort (· ≤ ·) with hs
      refine ⟨s.take k, (s.drop k).take (w.length - 2 * k), s.drop (w.length - k), David.sorted w k, ?_, ?_, ?_, ?_, ?_, ?_⟩
      · have e1 : s.drop (w.length - k) = (s.drop k).drop (w.length - 2 * k) := by
          rw [List.drop_drop]
          congr 1
          omega
        rw [e1, List.append_assoc, List.take_append_drop, List.take_append_drop]
        exact (List.mergeSort_perm _ _).symm
      · rw [List.length_take, hml]
        omega
      · rw [List.length_drop, hml]
        omega
      · intro x hx
        obtain ⟨i, hi, rfl⟩ := List.getElem_of_mem hx
        rw [List.length_take, hml] at hi
        rw [List.getElem_take, hget i (by omega)]
        exact hmono (by omega)
      · intro x hx
        obtain ⟨i, hi, rfl⟩ := List.getElem_of_mem hx
        rw [List.length_take, List.length_drop, hml] at hi
        rw [List.getElem_take, List.getElem_drop, hget (k + i) (by omega)]
        refine le_antisymm ?_ (hmono (by omega))
        rw [h]
        exact hmono (by omega)
      · intro x hx
        obtain ⟨i, hi, rfl⟩ := List.getElem_of_mem hx
        rw [List.length_drop, hml] at hi
        rw [List.getElem_drop, hget (w.length - k + i) (by omega)]
        exact hmono (by omega)
    · rintro ⟨a, b, c, v, hperm, ha, hc, hav, hbv, hcv⟩
      have hl : w.length = a.length + b.length + c.length := by
        rw [hperm.length_eq]
        simp [add_assoc]
      have hsort : w.mergeSort (· ≤ ·) = a.mergeSort (· ≤ ·) ++ b ++ c.mergeSort (· ≤ ·) := by
        refine List.Perm.eq_of_pairwise (le := (· ≤ ·)) (fun x y _ _ h1 h2 => le_antisymm h1 h2) (sortedList w) ?_
          ((List.mergeSort_perm _ _).trans (hperm.trans ((((List.mergeSort_perm a _).symm.append_right b)).append
            (List.mergeSort_perm c _).symm)))
        rw [List.pairwise_append, List.pairwise_append]
        refine ⟨⟨sortedList a, ?_, ?_⟩, sortedList c, ?_⟩
        · rw [List.pairwise_iff_getElem]
          intro i j hi hj _
          rw [hbv _ (List.getElem_mem hi), hbv _ (List.getElem_mem hj)]
        · intro x hx y hy
          rw [hbv y hy]
          exact hav x (List.mem_mergeSort.1 hx)
        · intro x hx y hy
          have hy' := hcv y (List.mem_mergeSort.1 hy)
          rcases List.mem_append.1 hx with h | h
          · exact (hav x (List.mem_mergeSort.1 h)).trans hy'
          · rw [hbv x h]
            exact hy'
      have hval : ∀ i, k ≤ i → i < w.length - k → David.sorted w i = v := by
        intro i hi1 hi2
        have hi3 : i < (w.mergeSort (· ≤ ·)).length := by omega
        rw [← hget i (by omega) hi3]
        have hla : (a.mergeSort (· ≤ ·)).length = k := by rw [List.length_mergeSort, ha]
        apply hbv
        simp only [hsort]
        rw [List.getElem_append_left (by rw [List.length_append, hla]; omega), List.getElem_append_right (by omega)]
        exact List.getElem_mem _
      rw [hval k le_rfl (by omega), hval (w.length - 1 - k) (by omega) (by omega)]

/-- Equal weights. -/
example : ∀ x ∈ markerSizes 15 4 [1, 1, 1], x = none :=
  (C79_marker_nan 15 4 (w := [1, 1, 1]) (by simp)).2.2 ⟨[], [1, 1, 1], [], 1, by simp, rfl, rfl, by simp, by simp, by simp⟩

/-- Different weights. -/
example : percentile [2, 1] 1 ≠ percentile [2, 1] 99 := by
  rw [Ne, David.percentile_eq_iff (by simp)]
  intro h
  have h1 := David.sorted_zero_le (l := [2, 1]) (x := 1) (by simp)
  have h2 := David.le_sorted_last (l := [2, 1]) (x := 2) (by simp)
  simp only [List.length_cons, List.length_nil] at h h2
  norm_num at h h2
  linarith

end Coreax
