import Verif.Props.Equivariance
import Verif.Props.BlobsRow
import Verif.Props.RandomRate

/-!
# C92: A weight is a number of copies
-/

set_option linter.unusedSectionVars false

namespace Coreax

open Spec

section
variable {K : Type*} [Field K] [LinearOrder K] [IsStrictOrderedRing K] {X : Type*} [Zero X] {n m N M : ℕ}

/-- The weights `w` of rows are split among copies of them, of which copy `i` is a copy of row `ρ i` and has the weight `w' i`. -/
def Spec.Splits (ρ : Fin N → Fin n) (w' : Fin N → K) (w : Fin n → K) : Prop := ∀ j, w j = ∑ i, if ρ i = j then w' i else 0

theorem Copies.sum_eq {ρ : Fin N → Fin n} {w' : Fin N → K} {w : Fin n → K} (h : Splits ρ w' w) : ∑ j, w j = ∑ i, w' i := by
  simp only [h _]
  rw [Finset.sum_comm]
  simp

theorem Copies.avg_eq {ρ : Fin N → Fin n} {w' : Fin N → K} {w : Fin n → K} (h : Splits ρ w' w) (g : Fin n → K) : avg w' (fun i => g (ρ i)) = avg w g := by
  have h2 : ∑ j, w j * g j = ∑ i, w' i * g (ρ i) := by
    simp only [h _, Finset.sum_mul]
    rw [Finset.sum_comm]
    refine Finset.sum_congr rfl fun i _ => ?_
    simp [ite_mul]
  unfold Spec.avg
  rw [h2, Copies.sum_eq h]

theorem Copies.pos {ρ : Fin N → Fin n} {w' : Fin N → K} {w : Fin n → K} (h0 : ∀ i, 0 ≤ w' i) (h : Splits ρ w' w) (i : Fin N) (hi : 0 < w' i) : 0 < w (ρ i) := by
  rw [h]
  refine lt_of_lt_of_le hi ?_
  have := Finset.single_le_sum (f := fun t => if ρ t = ρ i then w' t else 0) (fun t _ => by split_ifs; exacts [h0 t, le_refl _]) (Finset.mem_univ i)
  simpa using this

theorem Copies.exists_copy {ρ : Fin N → Fin n} {w' : Fin N → K} {w : Fin n → K} (h : Splits ρ w' w) (j : Fin n) (hj : 0 < w j) : ∃ i, ρ i = j ∧ 0 < w' i := by
  by_contra hcon
  push Not at hcon
  refine absurd hj (not_lt.2 ?_)
  rw [h]
  refine Finset.sum_nonpos fun i _ => ?_
  split_ifs with h
  · exact hcon i h
  · exact le_refl _

/-- **C92.** There are copies for all numbers of copies: `numpy.repeat(rows, c)`, in the order of the rows, is of the kind that the other theorems are about. -/
theorem C92_exists (c : Fin n → ℕ) : ∃ (N : ℕ) (ρ : Fin N → Fin n), N = ∑ j, c j ∧ Monotone ρ ∧ Splits ρ (fun _ => (1 : K)) fun j => c j := by
  obtain ⟨l, hl⟩ : ∃ l : List (Fin n), l = (List.finRange n).flatMap fun i => List.replicate (c i) i := ⟨_, rfl⟩
  have hlen : l.length = ∑ j, c j := by
    rw [hl, List.length_flatMap]
    simp only [List.length_replicate]
    rw [← List.ofFn_eq_map, List.sum_ofFn]
  have hsort : l.Pairwise (· ≤ ·) := by
    rw [hl, List.pairwise_flatMap]
    refine ⟨fun a _ => ?_, ?_⟩
    · rw [List.pairwise_replicate]; exact Or.inr le_rfl
    · refine (List.pairwise_le_finRange n).imp fun {a b} hab x hx y hy => ?_
      rw [List.eq_of_mem_replicate hx, List.eq_of_mem_replicate hy]
      exact hab
  refine ⟨l.length, l.get, hlen, fun i j hij => ?_, fun j => ?_⟩
  · rcases hij.lt_or_eq with h | h
    · exact List.pairwise_iff_get.1 hsort i j h
    · rw [h]
  · have h1 : ∑ i : Fin l.length, (if l.get i = j then (1 : K) else 0) = (l.map fun i => if i = j then (1 : K) else 0).sum := by
      rw [← Fin.sum_univ_fun_getElem]; rfl
    rw [h1, hl, List.map_flatMap, List.flatMap_def, List.sum_flatten, List.map_map]
    simp only [Function.comp_def, List.map_replicate, List.sum_replicate, nsmul_eq_mul]
    rw [← List.ofFn_eq_map, List.sum_ofFn]
    simp

example := C92_exists (K := ℚ) ![2, 0, 3]

/-- **C92.** Kernel means over both operands, and over one of them. -/
theorem C92_mean (big : K) (k : X → X → K) (hn : 0 < N) (hm : 0 < M) (x : Fin n → X) (y : Fin m → X) {ρ : Fin N → Fin n} {σ : Fin M → Fin m} {w' : Fin N → K} {w : Fin n → K} {v' : Fin M → K} {v : Fin m → K}
    (hρ : Splits ρ w' w) (hσ : Splits σ v' v) (hw : ∑ j, w j ≠ 0) (hv : ∑ j, v j ≠ 0) (bs : PyTree (Option ℤ)) (hbs : ValidBlock bs) :
    computeMean big k ⟨fun i => x (ρ i), w'⟩ ⟨fun i => y (σ i), v'⟩ .none bs = computeMean big k ⟨x, w⟩ ⟨y, v⟩ .none bs ∧
    computeMean big k ⟨x, w⟩ ⟨fun i => y (σ i), v'⟩ .one bs = computeMean big k ⟨x, w⟩ ⟨y, v⟩ .one bs := by
  have hn' : 0 < n := Fin.pos (ρ ⟨0, hn⟩)
  have hm' : 0 < m := Fin.pos (σ ⟨0, hm⟩)
  have hw' : ∑ i, w' i ≠ 0 := by rwa [← Copies.sum_eq hρ]
  have hv' : ∑ i, v' i ≠ 0 := by rwa [← Copies.sum_eq hσ]
  constructor
  · rw [C05_mean_none big k hn hm _ _ hw' hv' bs hbs, C05_mean_none big k hn' hm' _ _ hw hv bs hbs]
    simp only
    rw [← Copies.avg_eq hρ]
    simp only [fun a => Copies.avg_eq hσ fun j => k a (y j)]
  · rw [C05_mean_axis1 big k hn' hm _ _ hv' bs hbs, C05_mean_axis1 big k hn' hm' _ _ hv bs hbs]
    simp only [fun a => Copies.avg_eq hσ fun j => k a (y j)]

example := C92_mean (K := ℚ) 1000 (fun a b : ℚ => a * b + 1) (N := 3) (M := 2) (by norm_num) (by norm_num) ![5, 7] ![1, 2] (ρ := ![0, 1, 1]) (σ := ![1, 0]) (w' := fun _ => 1) (w := ![1, 2]) (v' := ![1, 4]) (v := ![4, 1])
  (by unfold Splits; decide +kernel) (by unfold Splits; decide +kernel) (by decide +kernel) (by decide +kernel) (.leaf none) (Or.inl rfl)

theorem Copies.mmdSq_eq (k : X → X → K) (x : Fin n → X) (y : Fin m → X) {ρ : Fin N → Fin n} {σ : Fin M → Fin m} {w' : Fin N → K} {w : Fin n → K} {v' : Fin M → K} {v : Fin m → K}
    (hρ : Splits ρ w' w) (hσ : Splits σ v' v) : mmdSq k (fun i => x (ρ i)) w' (fun i => y (σ i)) v' = mmdSq k x w y v := by
  unfold mmdSq
  rw [← Copies.avg_eq hρ, ← Copies.avg_eq hρ, ← Copies.avg_eq hσ]
  simp only [fun a => Copies.avg_eq hσ fun j => k a (y j), fun a => Copies.avg_eq hρ fun j => k a (x j)]

/-- **C92.** Kernel herding with `unique=False`, ties included: if the copies are in the order of the rows then the first copies of the same rows are selected. -/
theorem C92_herding [NeZero n] [NeZero N] (big : K) (k : X → X → K) (hk : ∀ a b, k a b = k b a) (x : Fin n → X) {ρ : Fin N → Fin n} (hmono : Monotone ρ) {w' : Fin N → K} {w : Fin n → K} (hw0 : ∀ i, 0 ≤ w' i)
    (hρ : Splits ρ w' w) (bs : PyTree (Option ℤ)) (hbs : ValidBlock bs) (size : ℕ) (hsize : 0 < size) (hpos : PosCount w size) (hpos' : PosCount w' size)
    (ord : List (Fin (size + (size - size)))) (hord : ∀ t, t ∈ ord) :
    ∃ (f : Fin size → Fin n) (f' : Fin size → Fin N) (g g' : List K), herdingReduce big k none false bs size ⟨x, w⟩ none ord = .ok (⟨fun t => (f t : ℤ), fun _ => 1⟩, g) ∧
      herdingReduce big k none false bs size ⟨fun i => x (ρ i), w'⟩ none ord = .ok (⟨fun t => (f' t : ℤ), fun _ => 1⟩, g') ∧ (∀ t, ρ (f' t) = f t) ∧ ∀ t i, ρ i = f t → 0 < w' i → f' t ≤ i := by
  have hsum' : 0 < ∑ i, w' i := by
    obtain ⟨i, hi⟩ : ∃ i, 0 < w' i := by
      by_contra hcon
      push Not at hcon
      have : (Finset.univ.filter (fun j => 0 < w' j)).card = 0 := by
        rw [Finset.card_eq_zero, Finset.filter_eq_empty_iff]
        exact fun i _ => not_lt.2 (hcon i)
      unfold Spec.PosCount at hpos'
      omega
    exact lt_of_lt_of_le hi (Finset.single_le_sum (f := w') (fun t _ => hw0 t) (Finset.mem_univ i))
  have hsum : 0 < ∑ j, w j := by rwa [Copies.sum_eq hρ]
  obtain ⟨f, h1, h2⟩ := C12_reduce_greedy big k hk false bs hbs size hsize ⟨x, w⟩ hsum.ne' none (by simp) ord hord hpos
  obtain ⟨f', h3, h4⟩ := C12_reduce_greedy big k hk false bs hbs size hsize ⟨fun i => x (ρ i), w'⟩ hsum'.ne' none (by simp) ord hord hpos'
  have havg : ∀ y : X, Spec.avg w' (fun l => k (x (ρ l)) y) = Spec.avg w (fun l => k (x l) y) := fun y => Copies.avg_eq hρ (fun l => k (x l) y)
  have key : ∀ i, (∀ t, t < i → ρ (f' t) = f t) → ρ (f' i) = f i ∧ ∀ a, ρ a = f i → 0 < w' a → f' i ≤ a := by
    intro i hlt
    obtain ⟨hal, hmax, hfirst⟩ := h4 i
    obtain ⟨hal2, hmax2, hfirst2⟩ := h2 i
    have hsum : ∀ y : X, (∑ t, if t < i then k y (x (ρ (f' t))) else 0) = ∑ t, if t < i then k y (x (f t)) else 0 := by
      intro y
      refine Finset.sum_congr rfl fun t _ => ?_
      split_ifs with h
      · rw [hlt t h]
      · rfl
    simp only [hsum, havg] at hmax hfirst
    simp only at hmax2 hfirst2
    have hfree : ∀ j : Fin n, false = true → ∀ t, t < i → f t ≠ j := fun _ h => by simp at h
    have hfree' : ∀ j : Fin N, false = true → ∀ t, t < i → f' t ≠ j := fun _ h => by simp at h
    obtain ⟨a, ha, hwa⟩ := Copies.exists_copy hρ (f i) hal2.1
    have e1 := hmax a ⟨hwa, hfree' a⟩
    have e2 := hmax2 (ρ (f' i)) ⟨Copies.pos hw0 hρ _ hal.1, hfree _⟩
    rw [ha] at e1
    have e3 := le_antisymm e2 e1
    have hle : f i ≤ ρ (f' i) := by
      by_contra hc
      exact absurd (hfirst2 _ (not_le.1 hc) ⟨Copies.pos hw0 hρ _ hal.1, hfree _⟩) (by rw [e3]; exact lt_irrefl _)
    have hle' : ∀ b, ρ b = f i → 0 < w' b → f' i ≤ b := by
      intro b hb hwb
      by_contra hc
      have := hfirst b (not_le.1 hc) ⟨hwb, hfree' b⟩
      rw [hb, e3] at this
      exact lt_irrefl _ this
    exact ⟨le_antisymm ((hmono (hle' a ha hwa)).trans_eq ha) hle, hle'⟩
  have all : ∀ i, ρ (f' i) = f i := by
    intro i
    induction h : (i : ℕ) using Nat.strong_induction_on generalizing i with
    | _ N ih => exact (key i fun t ht => ih t (by rw [← h]; exact ht) t rfl).1
  exact ⟨f, f', _, _, h1, h3, all, fun t => (key t fun s _ => all s).2⟩

example (ord : List (Fin (2 + (2 - 2)))) (hord : ∀ t, t ∈ ord) := C92_herding (K := ℚ) 1000 (fun a b : ℚ => a * b + 1) (fun a b => by ring) ![0, 1, 3] (ρ := ![0, 1, 1, 2]) (by decide) (w' := fun _ => 1) (w := ![1, 2, 1]) (by simp)
  (by unfold Splits; decide +kernel) (.leaf none) (Or.inl rfl) 2 (by norm_num) (by unfold PosCount; decide +kernel) (by unfold PosCount; decide +kernel) ord hord

/-- **C92.** Unregularised Stein thinning with `unique=False` selects the first copies of the same rows; here the weights do not matter at all, as long as they are positive for the same rows. -/
theorem C92_stein [NeZero n] [NeZero N] (big : K) (k : X → X → K) (x : Fin n → X) {ρ : Fin N → Fin n} (hmono : Monotone ρ) {w' : Fin N → K} {w : Fin n → K}
    (hρ : ∀ j, 0 < w j ↔ ∃ i, ρ i = j ∧ 0 < w' i) (bs : PyTree (Option ℤ)) (hbs : ValidBlock bs) (size : ℕ) (hsize : 0 < size) (hpos : PosCount w size) (hpos' : PosCount w' size)
    (ord : List (Fin (size + (size - size)))) (hord : ∀ t, t ∈ ord) :
    ∃ (f : Fin size → Fin n) (f' : Fin size → Fin N), steinReduce big k false bs size ⟨x, w⟩ none ord = .ok ⟨fun t => (f t : ℤ), fun _ => 1⟩ ∧
      steinReduce big k false bs size ⟨fun i => x (ρ i), w'⟩ none ord = .ok ⟨fun t => (f' t : ℤ), fun _ => 1⟩ ∧ (∀ t, ρ (f' t) = f t) ∧ ∀ t i, ρ i = f t → 0 < w' i → f' t ≤ i := by
  obtain ⟨f, h1, h2, -⟩ := C15_reduce_greedy big k false bs hbs size hsize ⟨x, w⟩ none ord hord hpos
  obtain ⟨f', h3, h4, -⟩ := C15_reduce_greedy big k false bs hbs size hsize ⟨fun i => x (ρ i), w'⟩ none ord hord hpos'
  have key : ∀ i, (∀ t, t < i → ρ (f' t) = f t) → ρ (f' i) = f i ∧ ∀ a, ρ a = f i → 0 < w' a → f' i ≤ a := by
    intro i hlt
    obtain ⟨hal, hmin⟩ := h4 i
    obtain ⟨hal2, hmin2⟩ := h2 i
    have hsum : ∀ y : X, (∑ t, if t < i then k y (x (ρ (f' t))) else 0) = ∑ t, if t < i then k y (x (f t)) else 0 := by
      intro y
      refine Finset.sum_congr rfl fun t _ => ?_
      split_ifs with h
      · rw [hlt t h]
      · rfl
    simp only [hsum, regLap, regLogp] at hmin hmin2
    have hfree : ∀ j : Fin n, false = true → ∀ t, t < i → f t ≠ j := fun _ h => by simp at h
    have hfree' : ∀ j : Fin N, false = true → ∀ t, t < i → f' t ≠ j := fun _ h => by simp at h
    have hp : 0 < w (ρ (f' i)) := (hρ _).2 ⟨_, rfl, hal.1⟩
    obtain ⟨a, ha, hwa⟩ := (hρ (f i)).1 hal2.1
    have e1 := (hmin a ⟨hwa, hfree' a⟩).1
    have e2 := (hmin2 (ρ (f' i)) ⟨hp, hfree _⟩).1
    rw [ha] at e1
    have e3 := le_antisymm e2 e1
    have hle : f i ≤ ρ (f' i) := by
      by_contra hc
      exact absurd ((hmin2 _ ⟨hp, hfree _⟩).2 (not_le.1 hc)) (by rw [e3]; exact lt_irrefl _)
    have hle' : ∀ b, ρ b = f i → 0 < w' b → f' i ≤ b := by
      intro b hb hwb
      by_contra hc
      have := (hmin b ⟨hwb, hfree' b⟩).2 (not_le.1 hc)
      rw [hb, e3] at this
      exact lt_irrefl _ this
    exact ⟨le_antisymm ((hmono (hle' a ha hwa)).trans_eq ha) hle, hle'⟩
  have all : ∀ i, ρ (f' i) = f i := by
    intro i
    induction h : (i : ℕ) using Nat.strong_induction_on generalizing i with
    | _ N ih => exact (key i fun t ht => ih t (by rw [← h]; exact ht) t rfl).1
  exact ⟨f, f', h1, h3, all, fun t => (key t fun s _ => all s).2⟩

example (ord : List (Fin (2 + (2 - 2)))) (hord : ∀ t, t ∈ ord) := C92_stein (K := ℚ) 1000 (fun a b : ℚ => a * b + 1) ![0, 1, 3] (ρ := ![0, 1, 1, 2]) (by decide) (w' := fun _ => 1) (w := ![1, 7, 1])
  (by decide +kernel) (.leaf none) (Or.inl rfl) 2 (by norm_num) (by unfold PosCount; decide +kernel) (by unfold PosCount; decide +kernel) ord hord

end

section
variable {X : Type} [Zero X] {n m N M : ℕ}

/-- **C92.** The maximum mean discrepancy, with copies on both sides. -/
theorem C92_mmd (big : ℝ) (k : X → X → ℝ) (hn : 0 < N) (hm : 0 < M) (x : Fin n → X) (y : Fin m → X) {ρ : Fin N → Fin n} {σ : Fin M → Fin m} {w' : Fin N → ℝ} {w : Fin n → ℝ} {v' : Fin M → ℝ} {v : Fin m → ℝ}
    (hρ : Splits ρ w' w) (hσ : Splits σ v' v) (hw : ∑ j, w j ≠ 0) (hv : ∑ j, v j ≠ 0) (bs bs' : PyTree (Option ℤ)) (hbs : ValidBlock bs) (hbs' : ValidBlock bs') :
    mmdCompute big k ⟨fun i => x (ρ i), w'⟩ ⟨fun i => y (σ i), v'⟩ bs = mmdCompute big k ⟨x, w⟩ ⟨y, v⟩ bs' := by
  have hw' : ∑ i, w' i ≠ 0 := by rwa [← Copies.sum_eq hρ]
  have hv' : ∑ i, v' i ≠ 0 := by rwa [← Copies.sum_eq hσ]
  rw [C07_compute big k hn hm _ _ hw' hv' bs hbs, C07_compute big k (Fin.pos (ρ ⟨0, hn⟩)) (Fin.pos (σ ⟨0, hm⟩)) _ _ hw hv bs' hbs']
  simp only [Copies.mmdSq_eq k x y hρ hσ]

/-- **C92.** The joint maximum mean discrepancy of supervised data, with copies on both sides. -/
theorem C92_jmmd {Y : Type} [Zero Y] (big : ℝ) (k : X → X → ℝ) (r : Y → Y → ℝ) (hn : 0 < N) (hm : 0 < M) (p : SupData n X Y ℝ) (q : SupData m X Y ℝ) {ρ : Fin N → Fin n} {σ : Fin M → Fin m} {w' : Fin N → ℝ} {v' : Fin M → ℝ}
    (hρ : Splits ρ w' p.weights) (hσ : Splits σ v' q.weights) (hw : ∑ j, p.weights j ≠ 0) (hv : ∑ j, q.weights j ≠ 0) :
    jmmdCompute big k r ⟨⟨fun i => p.data (ρ i), w'⟩, fun i => p.supervision (ρ i)⟩ ⟨⟨fun i => q.data (σ i), v'⟩, fun i => q.supervision (σ i)⟩ = jmmdCompute big k r p q := by
  have hn' : 0 < n := Fin.pos (ρ ⟨0, hn⟩)
  have hm' : 0 < m := Fin.pos (σ ⟨0, hm⟩)
  have h := C92_mmd big (tensorKernel k r) hn hm (pairs p).data (pairs q).data hρ hσ hw hv (.leaf none) (.leaf none) (Or.inl rfl) (Or.inl rfl)
  have h1 := C33_compute big k r hn hm ⟨⟨fun i => p.data (ρ i), w'⟩, fun i => p.supervision (ρ i)⟩ ⟨⟨fun i => q.data (σ i), v'⟩, fun i => q.supervision (σ i)⟩ (.leaf none) (Or.inl rfl)
  have h2 := C33_compute big k r hn' hm' p q (.leaf none) (Or.inl rfl)
  exact Except.ok.inj (h1.symm.trans (h.trans h2))

/-- **C92.** The kernel Stein discrepancy without corrections. -/
theorem C92_ksd (big : ℝ) (kp : X → X → ℝ) (hn : 0 < N) (x : Fin n → X) {ρ : Fin N → Fin n} {w' : Fin N → ℝ} {w : Fin n → ℝ} (hρ : Splits ρ w' w) (hw : ∑ j, w j ≠ 0)
    (bs bs' : PyTree (Option ℤ)) (hbs : ValidBlock bs) (hbs' : ValidBlock bs') :
    ksdCompute big kp ⟨fun i => x (ρ i), w'⟩ bs none none = ksdCompute big kp ⟨x, w⟩ bs' none none := by
  have hw' : ∑ i, w' i ≠ 0 := by rwa [← Copies.sum_eq hρ]
  rw [C35_ksd_value big kp hn _ hw' bs hbs, C35_ksd_value big kp (Fin.pos (ρ ⟨0, hn⟩)) _ hw bs' hbs']
  simp only
  rw [← Copies.avg_eq hρ]
  simp only [fun a => Copies.avg_eq hρ fun j => kp a (x j)]

/-- **C92.** Weighted random sampling with replacement: copies of the rows `g` are drawn with the probability with which the rows `g` are drawn. -/
theorem C92_sampling {size : ℕ} {ρ : Fin N → Fin n} {w' : Fin N → ℝ} {w : Fin n → ℝ} (hρ : Splits ρ w' w) (g : Fin size → Fin n) :
    ∑ f : Fin size → Fin N, (if ∀ t, ρ (f t) = g t then independentDraws w' f else 0) = independentDraws w g := by
  unfold independentDraws
  have h1 : ∀ t, w (g t) / ∑ j, w j = ∑ i, if ρ i = g t then w' i / ∑ j, w' j else 0 := by
    intro t
    rw [Copies.sum_eq hρ, hρ, Finset.sum_div]
    refine Finset.sum_congr rfl fun i _ => ?_
    split_ifs <;> simp
  simp only [h1]
  rw [Finset.prod_univ_sum, Fintype.piFinset_univ]
  refine Finset.sum_congr rfl fun f _ => ?_
  split_ifs with h
  · exact Finset.prod_congr rfl fun t _ => by rw [if_pos (h t)]
  · push Not at h
    obtain ⟨t, ht⟩ := h
    exact (Finset.prod_eq_zero (Finset.mem_univ t) (if_neg ht)).symm

example := C92_mmd 1000 (fun a b : ℝ => a * b + 1) (N := 3) (M := 2) (by norm_num) (by norm_num) ![5, 7] ![1, 2] (ρ := ![0, 1, 1]) (σ := ![1, 0]) (w' := fun _ => 1) (w := ![1, 2]) (v' := ![1, 4]) (v := ![4, 1])
  (by intro j; rw [Fin.sum_univ_three]; fin_cases j <;> simp <;> norm_num) (by intro j; rw [Fin.sum_univ_two]; fin_cases j <;> simp) (by norm_num [Fin.sum_univ_two]) (by norm_num [Fin.sum_univ_two]) (.leaf none) (.leaf none) (Or.inl rfl) (Or.inl rfl)

theorem Copies.splits_three : Splits (![0, 1, 1] : Fin 3 → Fin 2) (fun _ => (1 : ℝ)) ![1, 2] := by
  intro j
  rw [Fin.sum_univ_three]
  fin_cases j <;> simp
  norm_num

example := C92_jmmd 1000 (fun a b : ℝ => a * b + 1) (fun a b : ℝ => a * b) (N := 3) (M := 3) (by norm_num) (by norm_num) ⟨⟨![5, 7], ![1, 2]⟩, ![8, 9]⟩ ⟨⟨![1, 2], ![1, 2]⟩, ![3, 4]⟩
  Copies.splits_three Copies.splits_three (by norm_num [Fin.sum_univ_two]) (by norm_num [Fin.sum_univ_two])

example := C92_ksd 1000 (fun a b : ℝ => a * b + 1) (N := 3) (by norm_num) ![5, 7] Copies.splits_three (by norm_num [Fin.sum_univ_two]) (.leaf none) (.leaf none) (Or.inl rfl) (Or.inl rfl)

example := C92_sampling Copies.splits_three ![1, 0, 1, 1]

/-- **C92, boundary.** With `unique=True`, the default, weights are not copies: the rows 0 and 4 with weights 1 and 7 give the coreset 4, 0; eight rows with one 0 and seven 4 give 4, 4, at squared maximum mean discrepancy 1/4
instead of 9/4. -/
theorem C92_unique_differs : ∃ (x : Fin 2 → ℚ) (w : Fin 2 → ℚ) (ρ : Fin 8 → Fin 2), Monotone ρ ∧ Splits ρ (fun _ => 1) w ∧
    (herdingReduce 1000 (fun a b : ℚ => a * b + 1) none true (.leaf none) 2 ⟨x, w⟩ none [0, 1]).toOption.map (fun r => List.ofFn fun t => x (gatherIdx 2 (r.1.data t))) = some [4, 0] ∧
    (herdingReduce 1000 (fun a b : ℚ => a * b + 1) none true (.leaf none) 2 ⟨fun i => x (ρ i), fun _ => 1⟩ none [0, 1]).toOption.map (fun r => List.ofFn fun t => x (ρ (gatherIdx 8 (r.1.data t)))) = some [4, 4] ∧
    mmdSq (fun a b : ℚ => a * b + 1) x w ![4, 0] (fun _ => 1) = 9 / 4 ∧ mmdSq (fun a b : ℚ => a * b + 1) x w ![4, 4] (fun _ => 1) = 1 / 4 :=
  ⟨![0, 4], ![1, 7], ![0, 1, 1, 1, 1, 1, 1, 1], by unfold Splits; decide +kernel⟩

/-- **C92, boundary.** The corrections of the regularised kernel Stein discrepancy are divided by the number of rows: a row of weight two and two copies of it differ, for every Stein kernel and every positive Laplace term. -/
theorem C92_correction_differs (big : ℝ) (kp : X → X → ℝ) (x : X) (hx : 0 ≤ kp x x) (lap : ℝ) (hl : 0 < lap) (bs : PyTree (Option ℤ)) (hbs : ValidBlock bs) :
    Splits (fun _ : Fin 2 => (0 : Fin 1)) (fun _ => (1 : ℝ)) (fun _ => 2) ∧
    ∃ r r' : ℝ, ksdCompute big kp (⟨fun _ => x, fun _ => 2⟩ : Data 1 X ℝ) bs none (some fun _ => lap) = .ok r ∧ ksdCompute big kp (⟨fun _ => x, fun _ => 1⟩ : Data 2 X ℝ) bs none (some fun _ => lap) = .ok r' ∧ r' < r := by
  refine ⟨fun j => by fin_cases j; norm_num, _, _, C35_ksd_value big kp one_pos _ (by norm_num) bs hbs none _, C35_ksd_value big kp two_pos _ (by norm_num) bs hbs none _, ?_⟩
  simp only [avg, Fin.sum_univ_two, Finset.univ_unique, Finset.sum_singleton]
  norm_num
  constructor <;> linarith

example := C92_correction_differs 1000 (fun a b : ℝ => a * b + 1) 3 (by norm_num) (1 / 2) (by norm_num) (.leaf none) (Or.inl rfl)

end

/-- **C92, boundary.** The median heuristic ignores weights: for two different rows a kernel is made, for four copies of one and one of the other the length scale is zero and the kernel is refused. -/
theorem C92_median_differs {d : ℕ} (a b : Vec d) (hab : a ≠ b) : ∃ l : ℝ, medianHeuristic ![a, b] = some l ∧ (KExpr.squaredExponential l 1 : KExpr d).check = .ok () ∧
    medianHeuristic (fun i => (![a, b] : Fin 2 → Vec d) ((![0, 0, 0, 0, 1] : Fin 5 → Fin 2) i)) = some 0 ∧ (KExpr.squaredExponential 0 1 : KExpr d).check = .error .valueError := by
  have h5 : medianHeuristic (fun i => (![a, b] : Fin 2 → Vec d) ((![0, 0, 0, 0, 1] : Fin 5 → Fin 2) i)) = some 0 := by
    rw [C43_zero_iff]
    refine ⟨by norm_num, ?_⟩
    have : pairCount (fun i => (![a, b] : Fin 2 → Vec d) ((![0, 0, 0, 0, 1] : Fin 5 → Fin 2) i)) (fun a b => a = b) = 12 := by
      have e : ∀ q : Fin 5 × Fin 5, (q.1 ≠ q.2 ∧ (![a, b] : Fin 2 → Vec d) ((![0, 0, 0, 0, 1] : Fin 5 → Fin 2) q.1) = (![a, b] : Fin 2 → Vec d) ((![0, 0, 0, 0, 1] : Fin 5 → Fin 2) q.2)) ↔
          (q.1 ≠ q.2 ∧ (![0, 0, 0, 0, 1] : Fin 5 → Fin 2) q.1 = (![0, 0, 0, 0, 1] : Fin 5 → Fin 2) q.2) := by
        intro q
        have : Function.Injective (![a, b] : Fin 2 → Vec d) := by
          intro i j h
          fin_cases i <;> fin_cases j
          · rfl
          · exact absurd h hab
          · exact absurd h.symm hab
          · rfl
        rw [this.eq_iff]
      have h12 : (Finset.univ.filter fun q : Fin 5 × Fin 5 => q.1 ≠ q.2 ∧ (![0, 0, 0, 0, 1] : Fin 5 → Fin 2) q.1 = (![0, 0, 0, 0, 1] : Fin 5 → Fin 2) q.2).card = 12 := by decide
      refine Eq.trans ?_ h12
      unfold pairCount
      refine congrArg Finset.card (Finset.ext fun q => ?_)
      simp only [Finset.mem_filter, Finset.mem_univ, true_and]
      exact e q
    rw [this]
    norm_num
  obtain ⟨m, -, hm⟩ := C43_is_median (![a, b] : Fin 2 → Vec d) le_rfl
  have h0 : 0 ≤ Real.sqrt (m / 2) := Real.sqrt_nonneg _
  have hne : Real.sqrt (m / 2) ≠ 0 := by
    intro h
    rw [h, C43_zero_iff] at hm
    have : pairCount (![a, b] : Fin 2 → Vec d) (fun a b => a = b) = 0 := by
      unfold pairCount
      rw [Finset.card_eq_zero]
      refine Finset.eq_empty_of_forall_notMem fun q hq => ?_
      obtain ⟨i, j⟩ := q
      simp only [Finset.mem_filter, Finset.mem_univ, true_and] at hq
      fin_cases i <;> fin_cases j
      · exact hq.1 rfl
      · exact hab hq.2
      · exact hab hq.2.symm
      · exact hq.1 rfl
    omega
  refine ⟨_, hm, SteinStrict.check_squaredExponential (lt_of_le_of_ne h0 hne.symm) one_pos, h5, ?_⟩
  exact (C43_kernel_construction _ 0 h5).2 ((C43_zero_iff _).1 h5).2

example := C92_median_differs (d := 2) ![0, 1] ![2, 3] (fun h => by have := congrFun h 0; norm_num at this)

/-- **C92, boundary.** The optimiser of weights ignores the weights of the data: for data `a, b` with weights 2, 1 and the coreset `a, b` it returns equal weights, for the data `a, a, b` it does not, and these are strictly better
for both. -/
theorem C92_weights_differ {d : ℕ} {Y : Type} (qp : SimplexQP ℝ) (hqp : QPContract qp) (big l : ℝ) (hl : 0 < l) (a b : Vec d) (hab : a ≠ b) :
    ∃ v : Fin 2 → ℝ, mmdWeightsSolve qp big (KExpr.squaredExponential l 1 : KExpr d).sem.compute (⟨⟨![a, b], ![2, 1]⟩, none⟩ : DSet 2 (Vec d) Y ℝ) ⟨⟨![a, b], fun _ => 1⟩, none⟩ (1 / 10 ^ 10) (.leaf none) = .ok (fun _ => .fin (1 / 2)) ∧
      mmdWeightsSolve qp big (KExpr.squaredExponential l 1 : KExpr d).sem.compute (⟨⟨![a, a, b], fun _ => 1⟩, none⟩ : DSet 3 (Vec d) Y ℝ) ⟨⟨![a, b], fun _ => 1⟩, none⟩ (1 / 10 ^ 10) (.leaf none) = .ok (fun i => .fin (v i)) ∧
      mmdSq (KExpr.squaredExponential l 1 : KExpr d).sem.compute ![a, b] ![2, 1] ![a, b] v < mmdSq (KExpr.squaredExponential l 1 : KExpr d).sem.compute ![a, b] ![2, 1] ![a, b] (fun _ => 1 / 2) := by
  have hk := C08_psd (.squaredExponential l 1 : KExpr d) (SteinStrict.check_squaredExponential hl one_pos) trivial
  have hq : 0 < sqDist a b := lt_of_le_of_ne (sqDist_nonneg a b) fun e => hab (by
    funext i
    have := (Finset.sum_eq_zero_iff_of_nonneg fun i _ => mul_self_nonneg (a i - b i)).1 e.symm i (Finset.mem_univ i)
    exact sub_eq_zero.1 (mul_self_eq_zero.1 this))
  have hz : ∀ z : Vec d, sqDist z z = 0 := fun z => by simp [sqDist]
  obtain ⟨κ, hκ⟩ : ∃ κ, κ = (KExpr.squaredExponential l 1 : KExpr d).sem.compute a b := ⟨_, rfl⟩
  have kzz : ∀ z, (KExpr.squaredExponential l 1 : KExpr d).sem.compute z z = 1 := fun z => by simp [KExpr.sem, squaredExponentialSem, hz]
  have kba : (KExpr.squaredExponential l 1 : KExpr d).sem.compute b a = κ := by rw [hk.1 b a, hκ]
  have hκ1 : κ < 1 := by
    rw [hκ]
    simp only [KExpr.sem, squaredExponentialSem, one_mul]
    rw [Real.exp_lt_one_iff]
    exact div_neg_of_neg_of_pos (neg_neg_of_pos hq) (by positivity)
  have hs : 0 < 1 - κ := by linarith
  obtain ⟨ε, hε⟩ : ∃ ε : ℝ, ε = 1 / 10 ^ 10 := ⟨_, rfl⟩
  have hε0 : 0 < ε := by rw [hε]; positivity
  rw [← hε]
  obtain ⟨k, hkk⟩ : ∃ k, k = (KExpr.squaredExponential l 1 : KExpr d).sem.compute := ⟨_, rfl⟩
  rw [← hkk] at hk hκ kzz kba ⊢
  obtain ⟨u, h1, h2, h3⟩ := C29_optimal (Y := Y) qp hqp big k hk.1 (n := 2) two_pos two_pos ⟨⟨![a, b], ![2, 1]⟩, none⟩ ⟨⟨![a, b], fun _ => 1⟩, none⟩ rfl rfl ε hε0.le
    (fun v => hk.2 2 _ v) (.leaf none) (Or.inl rfl)
  obtain ⟨v, h4, h5, h6⟩ := C29_optimal (Y := Y) qp hqp big k hk.1 (n := 3) (by norm_num) two_pos ⟨⟨![a, a, b], fun _ => 1⟩, none⟩ ⟨⟨![a, b], fun _ => 1⟩, none⟩ rfl rfl ε hε0.le
    (fun v => hk.2 2 _ v) (.leaf none) (Or.inl rfl)
  have hu : u = fun _ => 1 / 2 := by
    have h := h3 (fun _ => 1 / 2) ⟨fun _ => by norm_num, by norm_num⟩
    simp only [distSq, Fin.sum_univ_two, Matrix.cons_val_zero, Matrix.cons_val_one, kzz, kba, ← hκ] at h
    obtain ⟨p, hp⟩ : ∃ p, p = u 0 - 1 / 2 := ⟨_, rfl⟩
    have hu0 : u 0 = 1 / 2 + p := by rw [hp]; ring
    have hu1 : u 1 = 1 / 2 - p := by
      have := h2.2
      rw [Fin.sum_univ_two] at this
      linarith
    rw [hu0, hu1] at h
    have hp2 : (1 - κ + ε) * p ^ 2 ≤ 0 := by push_cast at h; nlinarith
    have hp0 : p = 0 := by
      by_contra hne
      have : 0 < p ^ 2 := by positivity
      nlinarith [mul_pos (add_pos hs hε0) this]
    funext i
    fin_cases i
    · simp [hu0, hp0]
    · simp [hu1, hp0]
  refine ⟨v, h1.trans (congrArg (fun u : Fin 2 → ℝ => Except.ok fun i => Ext.fin (u i)) hu), h4, ?_⟩
  obtain ⟨p, hp⟩ : ∃ p, p = v 0 - 1 / 2 := ⟨_, rfl⟩
  have hv0 : v 0 = 1 / 2 + p := by rw [hp]; ring
  have hv1 : v 1 = 1 / 2 - p := by
    have := h5.2
    rw [Fin.sum_univ_two] at this
    linarith
  obtain ⟨t, ht⟩ : ∃ t, t = (1 - κ) / (6 * (1 - κ + ε)) := ⟨_, rfl⟩
  have ht0 : 0 < t := by rw [ht]; positivity
  have ht1 : t ≤ 1 / 6 := by
    rw [ht, div_le_div_iff₀ (by positivity) (by norm_num)]
    linarith
  have h10 := h6 ![1 / 2 + t, 1 / 2 - t] ⟨fun i => by fin_cases i <;> simp <;> linarith, by simp [Fin.sum_univ_two]; norm_num⟩
  simp only [distSq, Fin.sum_univ_two, Fin.sum_univ_three, Matrix.cons_val_zero, Matrix.cons_val_one, Matrix.cons_val, kzz, kba, ← hκ, hv0, hv1] at h10
  obtain ⟨hp0, hlt⟩ := BlobsRow.optimum hs hε0 ht (p := p) (by push_cast at h10; nlinarith)
  simp only [mmdSq, avg, Fin.sum_univ_two, Matrix.cons_val_zero, Matrix.cons_val_one, kzz, kba, ← hκ, hv0, hv1]
  norm_num
  nlinarith

example (qp : SimplexQP ℝ) (hqp : QPContract qp) := C92_weights_differ (d := 1) (Y := Unit) qp hqp 1000 3 (by norm_num) (fun _ => 0) (fun _ => 1) (fun h => by have := congrFun h 0; norm_num at this)

end Coreax
