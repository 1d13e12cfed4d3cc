import Verif.Model.MapReduce
import Verif.Spec.Greedy
import Verif.Lemmas.Greedy
import Verif.Props.Herding
import Verif.Props.Stein

/-!
# Lemmas on map-reduce: the arithmetic of partitions, and one round
-/

set_option linter.unusedSectionVars false

namespace Coreax

open Spec

/-! ### Arithmetic -/

theorem halfLeaf_pos (leaf : ℕ) : 0 < halfLeaf leaf := by unfold halfLeaf; omega

theorem nLeaves_le {n leaf : ℕ} (h0 : 0 < leaf) (h : leaf < n) : nLeaves n leaf * halfLeaf leaf ≤ n - 1 := by
  have hp := halfLeaf_pos leaf
  have hne : (n - 1) / halfLeaf leaf ≠ 0 := by
    refine (Nat.div_pos ?_ hp).ne'
    unfold halfLeaf at *
    omega
  have := Nat.pow_log_le_self 2 hne
  calc nLeaves n leaf * halfLeaf leaf ≤ ((n - 1) / halfLeaf leaf) * halfLeaf leaf := Nat.mul_le_mul_right _ this
    _ ≤ n - 1 := Nat.div_mul_le_self _ _

theorem lt_nLeaves (n leaf : ℕ) : n - 1 < 2 * nLeaves n leaf * halfLeaf leaf := by
  have hp := halfLeaf_pos leaf
  have := Nat.lt_pow_succ_log_self (b := 2) (by norm_num) ((n - 1) / halfLeaf leaf)
  have h2 := (Nat.div_lt_iff_lt_mul hp).1 this
  unfold nLeaves
  rw [Nat.succ_eq_add_one, pow_succ] at h2
  rwa [mul_comm 2]

theorem partRows_spec (n leaf : ℕ) [NeZero n] :
    n ≤ partRows n leaf * nLeaves n leaf ∧ partRows n leaf * nLeaves n leaf < n + nLeaves n leaf := by
  have h1 := NeZero.pos n
  have h2 := NeZero.pos (nLeaves n leaf)
  unfold partRows
  have := Nat.div_add_mod (n + nLeaves n leaf - 1) (nLeaves n leaf)
  have h3 := Nat.mod_lt (n + nLeaves n leaf - 1) h2
  rw [mul_comm] at this
  omega

theorem add_mrPadding (n leaf : ℕ) [NeZero n] : n + mrPadding n leaf = nLeaves n leaf * partRows n leaf := by
  have := (partRows_spec n leaf).1
  rw [mul_comm (nLeaves n leaf)]
  unfold mrPadding
  omega

/-- Partitions have more than half a leaf and at most a leaf of rows. -/
theorem partRows_bounds {n leaf : ℕ} [NeZero n] (h0 : 2 ≤ leaf) (h : leaf < n) :
    leaf / 2 < partRows n leaf ∧ partRows n leaf ≤ 2 * (leaf / 2) := by
  have hh : halfLeaf leaf = leaf / 2 := by unfold halfLeaf; omega
  have h1 := nLeaves_le (by omega) h
  have h2 := lt_nLeaves n leaf
  obtain ⟨h3, h4⟩ := partRows_spec n leaf
  have hp := NeZero.pos (nLeaves n leaf)
  rw [hh] at h1 h2
  constructor
  · by_contra hc
    have : partRows n leaf * nLeaves n leaf ≤ leaf / 2 * nLeaves n leaf := Nat.mul_le_mul_right _ (by omega)
    rw [mul_comm (leaf / 2)] at this
    omega
  · by_contra hc
    have : (2 * (leaf / 2) + 1) * nLeaves n leaf ≤ partRows n leaf * nLeaves n leaf := Nat.mul_le_mul_right _ (by omega)
    have e : (2 * (leaf / 2) + 1) * nLeaves n leaf = 2 * nLeaves n leaf * (leaf / 2) + nLeaves n leaf := by ring
    omega

/-- One round shrinks the data if the coreset fits half a leaf. -/
theorem round_shrinks {n leaf size : ℕ} (h0 : 2 ≤ leaf) (h : leaf < n) (hs : size ≤ leaf / 2) :
    nLeaves n leaf * size < n := by
  have hh : halfLeaf leaf = leaf / 2 := by unfold halfLeaf; omega
  have h1 := nLeaves_le (by omega) h
  rw [hh] at h1
  have := Nat.mul_le_mul_left (nLeaves n leaf) hs
  omega

/-- After the first round there is no padding. -/
theorem no_padding {leaf size j : ℕ} (h0 : 2 ≤ leaf) (hsize : 0 < size) (hs : size ≤ leaf / 2) (h : leaf < 2 ^ j * size) :
    mrPadding (2 ^ j * size) leaf = 0 := by
  have : NeZero (2 ^ j * size) := ⟨by positivity⟩
  have hh : halfLeaf leaf = leaf / 2 := by unfold halfLeaf; omega
  have h1 := nLeaves_le (by omega) h
  rw [hh] at h1
  set i := Nat.log 2 ((2 ^ j * size - 1) / halfLeaf leaf) with hi
  have hnl : nLeaves (2 ^ j * size) leaf = 2 ^ i := rfl
  have hij : i ≤ j := by
    by_contra hc
    have h2 : 2 ^ j ≤ 2 ^ i := Nat.pow_le_pow_right (by norm_num) (by omega)
    rw [hnl] at h1
    have h3 : 2 ^ j * size ≤ 2 ^ i * (leaf / 2) := Nat.mul_le_mul h2 hs
    have h4 : 0 < 2 ^ j * size := by positivity
    omega
  have hdvd : 2 ^ j * size = (2 ^ (j - i) * size) * 2 ^ i := by
    rw [mul_right_comm, ← pow_add, Nat.sub_add_cancel hij]
  obtain ⟨h3, h4⟩ := partRows_spec (2 ^ j * size) leaf
  rw [hnl] at h3 h4
  have hp : 0 < 2 ^ i := by positivity
  have hr : partRows (2 ^ j * size) leaf = 2 ^ (j - i) * size := by
    have h5 : 2 ^ (j - i) * size ≤ partRows (2 ^ j * size) leaf := by
      by_contra hc
      have := Nat.mul_lt_mul_of_pos_right (not_le.1 hc) hp
      rw [← hdvd] at this
      omega
    have h6 : partRows (2 ^ j * size) leaf < 2 ^ (j - i) * size + 1 := by
      by_contra hc
      have := Nat.mul_le_mul_right (2 ^ i) (not_lt.1 hc)
      rw [add_mul, ← hdvd] at this
      omega
    omega
  unfold mrPadding
  rw [hr, hnl, ← hdvd, Nat.sub_self]

/-! ### Calls on all partitions -/

theorem seqFin_ok {α : Type*} : ∀ (m : ℕ) (f : Fin m → Except Err α) (g : Fin m → α), (∀ i, f i = .ok (g i)) →
    seqFin m f = .ok g
  | 0, f, g, _ => by
    simp only [seqFin]
    congr 1
    funext i
    exact i.elim0
  | m + 1, f, g, h => by
    simp only [seqFin, h 0]
    rw [seqFin_ok m _ (fun i => g i.succ) (fun i => h i.succ)]
    simp only
    congr 1
    exact Fin.cons_self_tail g

theorem seqFin_error {α : Type*} {m : ℕ} (hm : 0 < m) (f : Fin m → Except Err α) (e : Err) (h : ∀ i, f i = .error e) :
    seqFin m f = .error e := by
  obtain ⟨m, rfl⟩ := Nat.exists_eq_succ_of_ne_zero hm.ne'
  simp only [seqFin, h 0]

/-! ### Contracts and one round -/

/-- What is assumed of the spatial tree (trusted): its index array, reshaped to the leaves, is a rearrangement of all row
numbers. -/
def TreeContract {X K : Type*} (tree : TreeIndices X K) : Prop :=
  ∀ (N nl rows : ℕ) (d : Data N X K), N = nl * rows →
    ∃ F : Fin nl → Fin rows → Fin N, (∀ q t, tree N nl rows d q t = ((F q t : ℕ) : ℤ)) ∧
      Function.Bijective (fun p : Fin nl × Fin rows => F p.1 p.2)

/-- What is required of the base solver: given enough rows of positive weight, it selects `size` distinct ones of them,
with positive coreset weights. (Proved below for kernel herding and Stein thinning.) -/
def BaseContract {X K : Type*} [Field K] [LinearOrder K] [IsStrictOrderedRing K] {size : ℕ} (base : BaseSolver X K size) : Prop :=
  ∀ (n : ℕ) [NeZero n] (d : Data n X K), PosCount d.weights size →
    ∃ (f : Fin size → Fin n) (w : Fin size → K), base n d = .ok ⟨fun t => ((f t : ℕ) : ℤ), w⟩ ∧
      Function.Injective f ∧ (∀ t, 0 < d.weights (f t)) ∧ ∀ t, 0 < w t

section Round
variable {X K : Type*} [Zero X] [Field K] [LinearOrder K] [IsStrictOrderedRing K]

theorem pad_weights_pos {n p : ℕ} {d : Data n X K} {i : Fin (n + p)} (h : 0 < (d.pad p).weights i) : (i : ℕ) < n := by
  by_contra hc
  have hi : i = Fin.natAdd n ⟨(i : ℕ) - n, by have := i.2; omega⟩ := by
    apply Fin.ext; simp; omega
  rw [hi] at h
  simp only [Data.pad, zeroPad, Fin.append_right, lt_irrefl] at h

theorem pad_data {n p : ℕ} (d : Data n X K) (i : Fin (n + p)) (h : (i : ℕ) < n) :
    (d.pad p).data i = d.data ⟨i, h⟩ ∧ (d.pad p).weights i = d.weights ⟨i, h⟩ := by
  have hi : i = Fin.castAdd p ⟨i, h⟩ := Fin.ext rfl
  constructor
  · conv_lhs => rw [hi]
    simp only [Data.pad, zeroPad, Fin.append_left]
  · conv_lhs => rw [hi]
    simp only [Data.pad, zeroPad, Fin.append_left]

/-- One round on data all of whose partitions have enough rows of positive weight: the new data are distinct rows of the
old data, at the positions given by the computed indices, all with positive weights. -/
theorem round_spec {size : ℕ} [NeZero size] (leaf : ℕ) (base : BaseSolver X K size) (hb : BaseContract base)
    (tree : TreeIndices X K) (ht : TreeContract tree) {n : ℕ} [NeZero n] (d : Data n X K)
    (hleaf : ∀ q, PosCount (partData leaf tree d q).weights size) :
    ∃ (r : Fin (nLeaves n leaf) → Data size ℤ K) (s : Fin (nLeaves n leaf * size) → Fin n),
      seqFin (nLeaves n leaf) (fun q => base (partRows n leaf) (partData leaf tree d q)) = .ok r ∧
      Function.Injective s ∧ mrIndices leaf tree d r = (fun p => ((s p : ℕ) : ℤ)) ∧
      (mrConcat leaf tree d r).data = (fun p => d.data (s p)) ∧ ∀ p, 0 < (mrConcat leaf tree d r).weights p := by
  obtain ⟨F, hF, hbij⟩ := ht (n + mrPadding n leaf) (nLeaves n leaf) (partRows n leaf) (d.pad (mrPadding n leaf))
    (add_mrPadding n leaf)
  choose f w hok hinj hpos hw using fun q => hb (partRows n leaf) (partData leaf tree d q) (hleaf q)
  have hwt : ∀ q t, (partData leaf tree d q).weights t = (d.pad (mrPadding n leaf)).weights (F q t) := by
    intro q t
    simp only [partData, Data.getItem]
    rw [hF, gatherIdx_coe]
  have hdt : ∀ q t, (partData leaf tree d q).data t = (d.pad (mrPadding n leaf)).data (F q t) := by
    intro q t
    simp only [partData, Data.getItem]
    rw [hF, gatherIdx_coe]
  have hlt : ∀ q t, ((F q (f q t) : Fin (n + mrPadding n leaf)) : ℕ) < n := by
    intro q t
    have := hpos q t
    rw [hwt] at this
    exact pad_weights_pos this
  have hsymm : ∀ p : Fin (nLeaves n leaf * size), finProdFinEquiv ((finProdFinEquiv.symm p).1, (finProdFinEquiv.symm p).2) = p :=
    fun p => finProdFinEquiv.apply_symm_apply p
  refine ⟨fun q => ⟨fun t => ((f q t : ℕ) : ℤ), w q⟩,
    fun p => ⟨F (finProdFinEquiv.symm p).1 (f (finProdFinEquiv.symm p).1 (finProdFinEquiv.symm p).2), hlt _ _⟩,
    seqFin_ok _ _ _ hok, ?_, ?_, ?_, ?_⟩
  · intro a b hab
    have h1 : F (finProdFinEquiv.symm a).1 (f (finProdFinEquiv.symm a).1 (finProdFinEquiv.symm a).2)
        = F (finProdFinEquiv.symm b).1 (f (finProdFinEquiv.symm b).1 (finProdFinEquiv.symm b).2) :=
      Fin.ext (by simpa using congrArg Fin.val hab)
    have h2 := hbij.1 (a₁ := ((finProdFinEquiv.symm a).1, f (finProdFinEquiv.symm a).1 (finProdFinEquiv.symm a).2))
      (a₂ := ((finProdFinEquiv.symm b).1, f (finProdFinEquiv.symm b).1 (finProdFinEquiv.symm b).2)) h1
    have h3 := (Prod.ext_iff.1 h2).1
    have h4 := (Prod.ext_iff.1 h2).2
    simp only at h3 h4
    rw [← h3] at h4
    exact finProdFinEquiv.symm.injective (Prod.ext h3 (hinj _ h4))
  · funext p
    simp only [mrIndices, partIdx, gatherIdx_coe]
    rw [hF]
    rw [show (((F (finProdFinEquiv.symm p).1 (f (finProdFinEquiv.symm p).1 (finProdFinEquiv.symm p).2)) : ℕ) : ℤ)
      = (((⟨_, hlt (finProdFinEquiv.symm p).1 (finProdFinEquiv.symm p).2⟩ : Fin n) : ℕ) : ℤ) from rfl, gatherIdx_coe]
  · funext p
    simp only [mrConcat, gatherIdx_coe]
    rw [hdt, (pad_data d _ (hlt _ _)).1]
  · intro p
    exact hw _ _

end Round

end Coreax
