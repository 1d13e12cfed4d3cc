import Verif.Lemmas.PSD
import Verif.Model.Metrics
import Verif.Lemmas.Kernel
import Verif.Props.Mean

/-!
# C07, C33: MMD and joint MMD
-/

set_option linter.unusedSectionVars false

namespace Coreax

open Spec
open scoped RealInnerProductSpace

universe u
variable {X : Type u} [Zero X]

theorem validBlock_pair (a b : Option ℤ) : ValidBlock (.node [.leaf a, .leaf b]) := by
  right; simp [PyTree.leaves, PyTree.leavesList]

/-- The squared quantity computed by the code is the textbook squared MMD, for every block size. -/
theorem C07_squared {K : Type*} [Field K] [LinearOrder K] [IsStrictOrderedRing K] (big : K) (k : X → X → K) {n m : ℕ}
    (hn : 0 < n) (hm : 0 < m) (x : Data n X K) (y : Data m X K) (hx : ∑ i, x.weights i ≠ 0) (hy : ∑ i, y.weights i ≠ 0)
    (bs : PyTree (Option ℤ)) (hbs : ValidBlock bs) :
    mmdSquared big k x y bs = .ok (mmdSq k x.data x.weights y.data y.weights) := by
  obtain ⟨a, b, hab⟩ := treeLeavesRepeat_of_valid hbs
  simp only [mmdSquared, hab, C05_mean_none big k hn hn x x hx hx _ (validBlock_pair a a),
    C05_mean_none big k hm hm y y hy hy _ (validBlock_pair b b),
    C05_mean_none big k hn hm x y hx hy _ (validBlock_pair a b), meanScalar, List.getD_cons_zero, mmdSq]
  congr 1
  ring

example := C07_squared 1000 (fun a b : ℚ => a * b + 1) (by norm_num) (by norm_num) (⟨![0, 1, 3], ![1, 2, 0]⟩ : Data 3 ℚ ℚ) (⟨![2, 4], ![1, -3]⟩ : Data 2 ℚ ℚ) (by decide +kernel) (by decide +kernel) (.leaf none) (.inl rfl)

/-- `MMD.compute` is the square root of the clipped squared MMD, for every block size. -/
theorem C07_compute (big : ℝ) (k : X → X → ℝ) {n m : ℕ}
    (hn : 0 < n) (hm : 0 < m) (x : Data n X ℝ) (y : Data m X ℝ) (hx : ∑ i, x.weights i ≠ 0) (hy : ∑ i, y.weights i ≠ 0)
    (bs : PyTree (Option ℤ)) (hbs : ValidBlock bs) :
    mmdCompute big k x y bs = .ok (Real.sqrt (max 0 (mmdSq k x.data x.weights y.data y.weights))) := by
  rw [mmdCompute, C07_squared big k hn hm x y hx hy bs hbs]
  rfl

example := C07_compute 1000 (fun a b : ℝ => a * b + 1) (by norm_num) (by norm_num) (⟨![0, 1, 3], ![1, 2, 0]⟩ : Data 3 ℝ ℝ) (⟨![2, 4], ![1, -3]⟩ : Data 2 ℝ ℝ) (by simp [Fin.sum_univ_three]; norm_num) (by norm_num [Fin.sum_univ_two]) (.leaf none) (.inl rfl)

/-- For a positive semi-definite kernel the result is the RKHS distance of the weighted mean embeddings, in particular
the clipping at zero changes nothing. -/
theorem C07_rkhs_distance (big : ℝ) (k : X → X → ℝ) (hk : IsPSD k) {n m : ℕ}
    (hn : 0 < n) (hm : 0 < m) (x : Data n X ℝ) (y : Data m X ℝ) (hx : ∑ i, x.weights i ≠ 0) (hy : ∑ i, y.weights i ≠ 0)
    (bs : PyTree (Option ℤ)) (hbs : ValidBlock bs) :
    0 ≤ mmdSq k x.data x.weights y.data y.weights ∧
    ∀ (H : Type u) (_ : NormedAddCommGroup H) (_ : InnerProductSpace ℝ H) (φ : X → H), (∀ a b, k a b = ⟪φ a, φ b⟫) →
      mmdCompute big k x y bs = .ok ‖meanEmbedding φ x.data x.weights - meanEmbedding φ y.data y.weights‖ := by
  refine ⟨?_, fun H _ _ φ hφ => ?_⟩
  · obtain ⟨H, _, _, φ, hφ⟩ := hk.exists_feature
    rw [mmdSq_eq_norm φ hφ]
    positivity
  · rw [C07_compute big k hn hm x y hx hy bs hbs, mmdSq_eq_norm φ hφ, max_eq_right (by positivity),
      Real.sqrt_sq (norm_nonneg _)]

example := C07_rkhs_distance 1000 (fun a b : ℝ => a * b + 1) ((isPSD_rankOne fun x : ℝ => x).add (isPSD_const zero_le_one)) (by norm_num) (by norm_num) (⟨![0, 1, 3], ![1, 2, 0]⟩ : Data 3 ℝ ℝ) (⟨![2, 4], ![1, -3]⟩ : Data 2 ℝ ℝ) (by simp [Fin.sum_univ_three]; norm_num) (by norm_num [Fin.sum_univ_two]) (.leaf none) (.inl rfl)

/-- Such a feature map always exists (Moore), so the previous theorem is never vacuous. -/
theorem C07_feature_map_exists (k : X → X → ℝ) (hk : IsPSD k) :
    ∃ (H : Type u) (_ : NormedAddCommGroup H) (_ : InnerProductSpace ℝ H) (φ : X → H), ∀ a b, k a b = ⟪φ a, φ b⟫ :=
  hk.exists_feature

example := C07_feature_map_exists (fun a b : ℝ => a * b + 1) ((isPSD_rankOne fun x : ℝ => x).add (isPSD_const zero_le_one))

/-- Non-negativity, whatever the kernel and the weights. -/
theorem C07_nonneg (big : ℝ) (k : X → X → ℝ) {n m : ℕ} (x : Data n X ℝ) (y : Data m X ℝ) (bs : PyTree (Option ℤ)) (r : ℝ)
    (h : mmdCompute big k x y bs = .ok r) : 0 ≤ r := by
  unfold mmdCompute clipSqrt at h
  split at h
  · cases h
  · injection h with h
    rw [← h]
    positivity

example := C07_nonneg 1000 (fun a b : ℝ => a * b + 1) (⟨![0, 1, 3], ![1, 2, 0]⟩ : Data 3 ℝ ℝ) (⟨![0, 1, 3], ![1, 2, 0]⟩ : Data 3 ℝ ℝ) (.leaf none)

/-- `MMD(P, P) = 0`, whatever the kernel and the weights (also for zero sums). -/
theorem C07_self (big : ℝ) (k : X → X → ℝ) {n : ℕ} (hn : 0 < n) (x : Data n X ℝ)
    (bs : PyTree (Option ℤ)) (hbs : ValidBlock bs) : mmdCompute big k x x bs = .ok 0 := by
  obtain ⟨a, b, hab⟩ := treeLeavesRepeat_of_valid hbs
  have h := ((C05_mean_errors big k x x .none (.node [.leaf a, .leaf b])).2.1 (validBlock_pair a b) hn hn)
  obtain ⟨l, hl, -⟩ := h
  have h1 := C05_block_size_irrelevant big k x x .none (.node [.leaf a, .leaf a]) _ (validBlock_pair a a) (validBlock_pair a b)
  have h2 := C05_block_size_irrelevant big k x x .none (.node [.leaf b, .leaf b]) _ (validBlock_pair b b) (validBlock_pair a b)
  simp only [mmdCompute, mmdSquared, hab, h1, h2, hl, meanScalar, clipSqrt]
  have : l.getD 0 0 + l.getD 0 0 - 2 * l.getD 0 0 = 0 := by ring
  rw [this]
  simp

example := C07_self 1000 (fun a b : ℝ => a * b + 1) (by norm_num) (⟨![0, 1, 3], ![1, 2, 0]⟩ : Data 3 ℝ ℝ) (.leaf none) (.inl rfl)

theorem avg_comm {K : Type*} [Field K] {n m : ℕ} (w : Fin n → K) (v : Fin m → K) (f : Fin n → Fin m → K) :
    avg w (fun i => avg v fun j => f i j) = avg v (fun j => avg w fun i => f i j) := by
  simp only [avg, mul_div_assoc', Finset.mul_sum, ← Finset.sum_div]
  rw [Finset.sum_comm, div_right_comm]
  congr 2
  exact Finset.sum_congr rfl (fun i _ => Finset.sum_congr rfl fun j _ => by ring)

theorem mmdSq_comm {K : Type*} [Field K] {Z : Type*} {k : Z → Z → K} (hk : ∀ a b, k a b = k b a) {n m : ℕ} (x : Fin n → Z) (wx : Fin n → K)
    (y : Fin m → Z) (wy : Fin m → K) : mmdSq k x wx y wy = mmdSq k y wy x wx := by
  unfold mmdSq
  rw [avg_comm wx wy]
  simp only [hk (x _) (y _)]
  ring

/-- Symmetry, for a symmetric kernel; the two calls may use different block sizes. -/
theorem C07_symm (big : ℝ) (k : X → X → ℝ) (hk : ∀ a b, k a b = k b a) {n m : ℕ}
    (hn : 0 < n) (hm : 0 < m) (x : Data n X ℝ) (y : Data m X ℝ) (hx : ∑ i, x.weights i ≠ 0) (hy : ∑ i, y.weights i ≠ 0)
    (bs bs' : PyTree (Option ℤ)) (hbs : ValidBlock bs) (hbs' : ValidBlock bs') :
    mmdCompute big k x y bs = mmdCompute big k y x bs' := by
  rw [C07_compute big k hn hm x y hx hy bs hbs, C07_compute big k hm hn y x hy hx bs' hbs', mmdSq_comm hk]

example := C07_symm 1000 (fun a b : ℝ => a * b + 1) (fun a b => by ring) (by norm_num) (by norm_num) (⟨![0, 1, 3], ![1, 2, 0]⟩ : Data 3 ℝ ℝ) (⟨![2, 4], ![1, -3]⟩ : Data 2 ℝ ℝ) (by simp [Fin.sum_univ_three]; norm_num) (by norm_num [Fin.sum_univ_two]) (.leaf none) (.leaf (some 2)) (.inl rfl) (.inl rfl)

/-- Triangle inequality, for a positive semi-definite kernel. -/
theorem C07_triangle (big : ℝ) (k : X → X → ℝ) (hk : IsPSD k) {n m l : ℕ}
    (hn : 0 < n) (hm : 0 < m) (hl : 0 < l) (x : Data n X ℝ) (y : Data m X ℝ) (z : Data l X ℝ)
    (hx : ∑ i, x.weights i ≠ 0) (hy : ∑ i, y.weights i ≠ 0) (hz : ∑ i, z.weights i ≠ 0)
    (bs : PyTree (Option ℤ)) (hbs : ValidBlock bs) :
    ∃ a b c, mmdCompute big k x z bs = .ok a ∧ mmdCompute big k x y bs = .ok b ∧ mmdCompute big k y z bs = .ok c ∧
      a ≤ b + c := by
  obtain ⟨H, i1, i2, φ, hφ⟩ := hk.exists_feature
  exact ⟨_, _, _, (C07_rkhs_distance big k hk hn hl x z hx hz bs hbs).2 H i1 i2 φ hφ,
    (C07_rkhs_distance big k hk hn hm x y hx hy bs hbs).2 H i1 i2 φ hφ,
    (C07_rkhs_distance big k hk hm hl y z hy hz bs hbs).2 H i1 i2 φ hφ, norm_sub_le_norm_sub_add_norm_sub _ _ _⟩

example := C07_triangle 1000 (fun a b : ℝ => a * b + 1) ((isPSD_rankOne fun x : ℝ => x).add (isPSD_const zero_le_one)) (by norm_num) (by norm_num) (by norm_num) (⟨![0, 1, 3], ![1, 2, 0]⟩ : Data 3 ℝ ℝ) (⟨![2, 4], ![1, -3]⟩ : Data 2 ℝ ℝ) (⟨![1], ![5]⟩ : Data 1 ℝ ℝ) (by simp [Fin.sum_univ_three]; norm_num) (by norm_num [Fin.sum_univ_two]) (by norm_num) (.leaf none) (.inl rfl)

theorem mmdSq_congr {k : X → X → ℝ} {n n' m m' : ℕ} (x : Fin n → X) (wx : Fin n → ℝ)
    (x' : Fin n' → X) (wx' : Fin n' → ℝ) (y : Fin m → X) (wy : Fin m → ℝ) (y' : Fin m' → X) (wy' : Fin m' → ℝ)
    (h1 : ∀ a, massAt x wx a / ∑ i, wx i = massAt x' wx' a / ∑ i, wx' i)
    (h2 : ∀ a, massAt y wy a / ∑ i, wy i = massAt y' wy' a / ∑ i, wy' i) :
    mmdSq k x wx y wy = mmdSq k x' wx' y' wy' := by
  have e1 : ∀ f : X → ℝ, avg wx (fun i => f (x i)) = avg wx' fun i => f (x' i) := avg_eq_of_massAt _ _ _ _ h1
  have e2 : ∀ f : X → ℝ, avg wy (fun i => f (y i)) = avg wy' fun i => f (y' i) := avg_eq_of_massAt _ _ _ _ h2
  unfold mmdSq
  have e3 : ∀ a, avg wx (fun i => k a (x i)) = avg wx' fun i => k a (x' i) := fun a => e1 (k a)
  have e4 : ∀ a, avg wy (fun i => k a (y i)) = avg wy' fun i => k a (y' i) := fun a => e2 (k a)
  simp only [e3, e4]
  rw [e1 (fun a => avg wx' fun j => k a (x' j)), e1 (fun a => avg wy' fun j => k a (y' j)),
    e2 (fun a => avg wy' fun j => k a (y' j))]

/-- The MMD depends on each argument only through the normalised mass that it puts on every point.  Hence it is
unchanged by reordering, by splitting a point into copies that share its weight, by rescaling all weights and by
adding points of weight zero. -/
theorem C07_depends_on_measure (big : ℝ) (k : X → X → ℝ) {n n' m m' : ℕ} (hn : 0 < n) (hm : 0 < m) (hn' : 0 < n') (hm' : 0 < m')
    (x : Data n X ℝ) (x' : Data n' X ℝ) (y : Data m X ℝ) (y' : Data m' X ℝ)
    (hx : ∑ i, x.weights i ≠ 0) (hy : ∑ i, y.weights i ≠ 0) (hx' : ∑ i, x'.weights i ≠ 0) (hy' : ∑ i, y'.weights i ≠ 0)
    (h1 : ∀ a, massAt x.data x.weights a / ∑ i, x.weights i = massAt x'.data x'.weights a / ∑ i, x'.weights i)
    (h2 : ∀ a, massAt y.data y.weights a / ∑ i, y.weights i = massAt y'.data y'.weights a / ∑ i, y'.weights i)
    (bs bs' : PyTree (Option ℤ)) (hbs : ValidBlock bs) (hbs' : ValidBlock bs') :
    mmdCompute big k x y bs = mmdCompute big k x' y' bs' := by
  rw [C07_compute big k hn hm x y hx hy bs hbs, C07_compute big k hn' hm' x' y' hx' hy' bs' hbs',
    mmdSq_congr _ _ _ _ _ _ _ _ h1 h2]

/-- A row of weight two against two rows of weight one. -/
example := C07_depends_on_measure 1000 (fun a b : ℝ => a * b + 1) (by norm_num) (by norm_num) (by norm_num) (by norm_num) (⟨![1], ![2]⟩ : Data 1 ℝ ℝ) (⟨![1, 1], ![1, 1]⟩ : Data 2 ℝ ℝ) (⟨![2, 4], ![1, -3]⟩ : Data 2 ℝ ℝ) (⟨![2, 4], ![1, -3]⟩ : Data 2 ℝ ℝ) (by norm_num) (by norm_num [Fin.sum_univ_two]) (by norm_num [Fin.sum_univ_two]) (by norm_num [Fin.sum_univ_two])
  (fun a => by
    by_cases h : (1 : ℝ) = a
    · subst h; norm_num [massAt, Fin.sum_univ_two]
    · simp [massAt, Fin.sum_univ_two, h]) (fun _ => rfl) (.leaf none) (.leaf (some 2)) (.inl rfl) (.inl rfl)

/-- Reordering the points of the reference data. -/
theorem C07_reorder (big : ℝ) (k : X → X → ℝ) {n m : ℕ} (hn : 0 < n) (hm : 0 < m)
    (x : Data n X ℝ) (y : Data m X ℝ) (hx : ∑ i, x.weights i ≠ 0) (hy : ∑ i, y.weights i ≠ 0)
    (σ : Equiv.Perm (Fin n)) (τ : Equiv.Perm (Fin m)) (bs : PyTree (Option ℤ)) (hbs : ValidBlock bs) :
    mmdCompute big k ⟨x.data ∘ σ, x.weights ∘ σ⟩ ⟨y.data ∘ τ, y.weights ∘ τ⟩ bs = mmdCompute big k x y bs := by
  have e : ∀ {n : ℕ} (w : Fin n → ℝ) (σ : Equiv.Perm (Fin n)), ∑ i, (w ∘ σ) i = ∑ i, w i := fun w σ => Equiv.sum_comp σ w
  have e' : ∀ {n : ℕ} (x : Fin n → X) (w : Fin n → ℝ) (σ : Equiv.Perm (Fin n)) (a : X),
      massAt (x ∘ σ) (w ∘ σ) a = massAt x w a := by
    intro n x w σ a
    classical
    exact Equiv.sum_comp σ (fun i => if x i = a then w i else 0)
  refine C07_depends_on_measure big k hn hm hn hm _ _ _ _ (by rwa [e]) (by rwa [e]) hx hy ?_ ?_ bs bs hbs hbs
  · intro a; simp only [e, e']
  · intro a; simp only [e, e']

example := C07_reorder 1000 (fun a b : ℝ => a * b + 1) (by norm_num) (by norm_num) (⟨![0, 1, 3], ![1, 2, 0]⟩ : Data 3 ℝ ℝ) (⟨![2, 4], ![1, -3]⟩ : Data 2 ℝ ℝ) (by simp [Fin.sum_univ_three]; norm_num) (by norm_num [Fin.sum_univ_two]) (Equiv.swap 0 2) (Equiv.swap 0 1) (.leaf none) (.inl rfl)

/-- Adding zero-weight points (of any value) to both arguments. -/
theorem C07_padding (big : ℝ) (k : X → X → ℝ) {n m p q : ℕ} (hn : 0 < n) (hm : 0 < m)
    (x : Data n X ℝ) (y : Data m X ℝ) (hx : ∑ i, x.weights i ≠ 0) (hy : ∑ i, y.weights i ≠ 0)
    (z : Fin p → X) (z' : Fin q → X) (bs : PyTree (Option ℤ)) (hbs : ValidBlock bs) :
    mmdCompute big k ⟨Fin.append x.data z, padWeights x.weights p⟩ ⟨Fin.append y.data z', padWeights y.weights q⟩ bs
      = mmdCompute big k x y bs := by
  have e' : ∀ {n p : ℕ} (x : Fin n → X) (w : Fin n → ℝ) (z : Fin p → X) (a : X),
      massAt (Fin.append x z) (padWeights w p) a = massAt x w a := by
    intro n p x w z a
    simp only [massAt, padWeights, Fin.sum_univ_add, Fin.append_left, Fin.append_right, ite_self, Finset.sum_const_zero,
      add_zero]
    exact Finset.sum_congr rfl (fun i _ => by rw [Fin.append_left])
  refine C07_depends_on_measure big k (by omega) (by omega) hn hm _ _ _ _ (by simpa [sum_padWeights]) (by simpa [sum_padWeights])
    hx hy ?_ ?_ bs bs hbs hbs
  · intro a; simp only [sum_padWeights, e']
  · intro a; simp only [sum_padWeights, e']

example := C07_padding 1000 (fun a b : ℝ => a * b + 1) (by norm_num) (by norm_num) (⟨![0, 1, 3], ![1, 2, 0]⟩ : Data 3 ℝ ℝ) (⟨![2, 4], ![1, -3]⟩ : Data 2 ℝ ℝ) (by simp [Fin.sum_univ_three]; norm_num) (by norm_num [Fin.sum_univ_two]) ![0, 7] ![8] (.leaf none) (.inl rfl)

/-- Splitting the last point into two copies that share its weight. -/
theorem C07_split (big : ℝ) (k : X → X → ℝ) {n m : ℕ} (hm : 0 < m)
    (x : Data (n + 1) X ℝ) (y : Data m X ℝ) (hx : ∑ i, x.weights i ≠ 0) (hy : ∑ i, y.weights i ≠ 0) (v : ℝ)
    (bs : PyTree (Option ℤ)) (hbs : ValidBlock bs) :
    mmdCompute big k ⟨Fin.snoc x.data (x.data (Fin.last n)),
      Fin.snoc (Function.update x.weights (Fin.last n) (x.weights (Fin.last n) - v)) v⟩ y bs = mmdCompute big k x y bs := by
  have es : ∑ i, (Fin.snoc (Function.update x.weights (Fin.last n) (x.weights (Fin.last n) - v)) v : Fin (n + 2) → ℝ) i
      = ∑ i, x.weights i := by
    rw [Fin.sum_univ_castSucc, Fin.sum_univ_castSucc, Fin.sum_univ_castSucc (f := x.weights)]
    simp
    ring
  have em : ∀ a, massAt (Fin.snoc x.data (x.data (Fin.last n)) : Fin (n + 2) → X)
      (Fin.snoc (Function.update x.weights (Fin.last n) (x.weights (Fin.last n) - v)) v : Fin (n + 2) → ℝ) a
      = massAt x.data x.weights a := by
    intro a
    classical
    unfold massAt
    rw [Fin.sum_univ_castSucc, Fin.sum_univ_castSucc,
      Fin.sum_univ_castSucc (f := fun i => if x.data i = a then x.weights i else 0)]
    simp
    split_ifs <;> ring
  exact C07_depends_on_measure big k (by omega) hm (by omega) hm _ _ _ _ (by simpa only [es] using hx) hy hx hy
    (fun a => by simp only [es, em]) (fun a => rfl) bs bs hbs hbs

example := C07_split (n := 2) 1000 (fun a b : ℝ => a * b + 1) (by norm_num) (⟨![0, 1, 3], ![1, 2, 0]⟩ : Data 3 ℝ ℝ) (⟨![2, 4], ![1, -3]⟩ : Data 2 ℝ ℝ) (by simp [Fin.sum_univ_succ]; norm_num) (by norm_num [Fin.sum_univ_two]) 5 (.leaf none) (.inl rfl)

/-- Rescaling the weights of either argument. -/
theorem C07_weight_scale (big : ℝ) (k : X → X → ℝ) {n m : ℕ} (hn : 0 < n) (hm : 0 < m)
    (x : Data n X ℝ) (y : Data m X ℝ) (hx : ∑ i, x.weights i ≠ 0) (hy : ∑ i, y.weights i ≠ 0) (c c' : ℝ) (hc : c ≠ 0)
    (hc' : c' ≠ 0) (bs : PyTree (Option ℤ)) (hbs : ValidBlock bs) :
    mmdCompute big k ⟨x.data, fun i => c * x.weights i⟩ ⟨y.data, fun i => c' * y.weights i⟩ bs = mmdCompute big k x y bs := by
  obtain ⟨a, b, hab⟩ := treeLeavesRepeat_of_valid hbs
  simp only [mmdCompute, mmdSquared, hab,
    C06_weight_scale big k hn hn x x hx hx c c hc hc .none _ (validBlock_pair a a),
    C06_weight_scale big k hm hm y y hy hy c' c' hc' hc' .none _ (validBlock_pair b b),
    C06_weight_scale big k hn hm x y hx hy c c' hc hc' .none _ (validBlock_pair a b)]

example := C07_weight_scale 1000 (fun a b : ℝ => a * b + 1) (by norm_num) (by norm_num) (⟨![0, 1, 3], ![1, 2, 0]⟩ : Data 3 ℝ ℝ) (⟨![2, 4], ![1, -3]⟩ : Data 2 ℝ ℝ) (by simp [Fin.sum_univ_three]; norm_num) (by norm_num [Fin.sum_univ_two]) 5 (-2) (by norm_num) (by norm_num) (.leaf none) (.inl rfl)

/-- Errors: a block size tree without one or two leaves is rejected; so is empty data. -/
theorem C07_errors (big : ℝ) (k : X → X → ℝ) {n m : ℕ} (x : Data n X ℝ) (y : Data m X ℝ) (bs : PyTree (Option ℤ)) :
    (¬ ValidBlock bs → mmdCompute big k x y bs = .error .valueError) ∧
    (ValidBlock bs → (n = 0 ∨ m = 0) → mmdCompute big k x y bs = .error .zeroDivisionError) := by
  constructor
  · intro h
    have hl := treeLeavesRepeat_of_invalid h
    unfold mmdCompute mmdSquared
    split
    · rename_i a b hab
      rw [hab] at hl
      exact absurd rfl hl
    · rfl
  · intro hbs h
    obtain ⟨a, b, hab⟩ := treeLeavesRepeat_of_valid hbs
    rcases Nat.eq_zero_or_pos n with hn | hn
    · simp only [mmdCompute, mmdSquared, hab,
        (C05_mean_errors big k x x .none _).1 (validBlock_pair a a) (Or.inl hn), meanScalar, clipSqrt]
    · have hm : m = 0 := by omega
      obtain ⟨l, hl, -⟩ := (C05_mean_errors big k x x .none (.node [.leaf a, .leaf a])).2.1 (validBlock_pair a a) hn hn
      simp only [mmdCompute, mmdSquared, hab, hl,
        (C05_mean_errors big k y y .none _).1 (validBlock_pair b b) (Or.inl hm), meanScalar, clipSqrt]

/-- A concrete case: linear kernel, weighted data, block size 2. -/
example : mmdSquared (1000 : ℚ) (fun a b : ℚ => a * b) (⟨![0, 1, 4], ![1, 2, 1]⟩ : Data 3 ℚ ℚ) (⟨![3, 5], ![1, 3]⟩ : Data 2 ℚ ℚ)
    (.leaf (some 2)) = .ok 9 := by decide +kernel

/-- With an indefinite "kernel" the clipping does act. -/
example : mmdSquared (1000 : ℚ) (fun a b : ℚ => - a * b) (⟨![0, 1, 4], ![1, 2, 1]⟩ : Data 3 ℚ ℚ) (⟨![3, 5], ![1, 3]⟩ : Data 2 ℚ ℚ)
    (.leaf (some 2)) = .ok (-9) := by decide +kernel

/-- The linear kernel on the line is positive semi-definite. -/
example : IsPSD (fun a b : ℝ => a * b) := by
  have := isPSD_of_feature (fun a : ℝ => a)
  simpa [mul_comm] using this

/-! ### C33: joint MMD -/

variable {Y : Type u} [Zero Y]

/-- The tensor-product kernel on pairs. -/
def Spec.tensorKernel {K : Type*} [Mul K] {X Y : Type*} (k : X → X → K) (r : Y → Y → K) : X × Y → X × Y → K :=
  fun a b => k a.1 b.1 * r a.2 b.2

/-- A supervised dataset as a dataset of pairs. -/
def Spec.pairs {K : Type*} {n : ℕ} {X Y : Type*} (d : SupData n X Y K) : Data n (X × Y) K :=
  ⟨fun i => (d.data i, d.supervision i), d.weights⟩

/-- The squared JMMD is the squared MMD of the pairs with the tensor-product kernel, for every block size of the MMD and
all weights (also for zero sums). -/
theorem C33_squared {K : Type*} [Field K] [LinearOrder K] (big : K) (k : X → X → K) (r : Y → Y → K) {n m : ℕ} (hn : 0 < n)
    (hm : 0 < m) (p : SupData n X Y K) (q : SupData m X Y K) (bs : PyTree (Option ℤ)) (hbs : ValidBlock bs) :
    mmdSquared big (tensorKernel k r) (pairs p) (pairs q) bs = .ok (jmmdSquared big k r p q) := by
  obtain ⟨a, b, hab⟩ := treeLeavesRepeat_of_valid hbs
  have key : ∀ {n m : ℕ} (hn : 0 < n) (hm : 0 < m) (p : SupData n X Y K) (q : SupData m X Y K) (a b : Option ℤ),
      computeMean big (tensorKernel k r) (pairs p) (pairs q) .none (.node [.leaf a, .leaf b])
        = .ok [jointMean k r p.data p.supervision (normWeightsPZ big p.weights) q.data q.supervision
            (normWeightsPZ big q.weights)] := by
    intro n m hn hm p q a b
    have e : treeLeavesRepeat (.node [.leaf a, .leaf b]) 2 = [a, b] := by
      simp [treeLeavesRepeat, PyTree.leaves, PyTree.leavesList]
    simp only [computeMean, e, columnMean_eq big _ hn hm, jointMean, tensorKernel, pairs]
    congr 2
    simp only [Finset.mul_sum, Finset.sum_mul]
    rw [Finset.sum_comm]
    exact Finset.sum_congr rfl (fun i _ => Finset.sum_congr rfl fun j _ => by ring)
  simp only [mmdSquared, hab, key hn hn p p, key hm hm q q, key hn hm p q, meanScalar, List.getD_cons_zero]
  rfl

example := C33_squared 1000 (fun a b : ℝ => a * b + 1) (fun a b : ℝ => a * b + 1) (by norm_num) (by norm_num) (⟨⟨![0, 1], ![1, 2]⟩, ![5, 7]⟩ : SupData 2 ℝ ℝ ℝ) (⟨⟨![4], ![1]⟩, ![5]⟩ : SupData 1 ℝ ℝ ℝ) (.leaf none) (.inl rfl)

/-- JMMD equals the MMD of the pairs. -/
theorem C33_compute (big : ℝ) (k : X → X → ℝ) (r : Y → Y → ℝ) {n m : ℕ} (hn : 0 < n)
    (hm : 0 < m) (p : SupData n X Y ℝ) (q : SupData m X Y ℝ) (bs : PyTree (Option ℤ)) (hbs : ValidBlock bs) :
    mmdCompute big (tensorKernel k r) (pairs p) (pairs q) bs = .ok (jmmdCompute big k r p q) := by
  rw [mmdCompute, C33_squared big k r hn hm p q bs hbs]
  rfl

example := C33_compute 1000 (fun a b : ℝ => a * b + 1) (fun a b : ℝ => a * b + 1) (by norm_num) (by norm_num) (⟨⟨![0, 1], ![1, 2]⟩, ![5, 7]⟩ : SupData 2 ℝ ℝ ℝ) (⟨⟨![4], ![1]⟩, ![5]⟩ : SupData 1 ℝ ℝ ℝ) (.leaf none) (.inl rfl)

/-- The tensor product of positive semi-definite kernels is positive semi-definite (so all laws of C07 apply). -/
theorem C33_tensor_psd (k : X → X → ℝ) (r : Y → Y → ℝ) (hk : IsPSD k) (hr : IsPSD r) : IsPSD (tensorKernel k r) :=
  (hk.comp Prod.fst).mul (hr.comp Prod.snd)

example := C33_tensor_psd (fun a b : ℝ => a * b + 1) (fun a b : ℝ => a * b + 1) ((isPSD_rankOne fun x : ℝ => x).add (isPSD_const zero_le_one)) ((isPSD_rankOne fun x : ℝ => x).add (isPSD_const zero_le_one))

/-- Non-negative, zero on itself, symmetric. -/
theorem C33_laws (big : ℝ) (k : X → X → ℝ) (r : Y → Y → ℝ) {n m : ℕ} (hn : 0 < n)
    (hm : 0 < m) (p : SupData n X Y ℝ) (q : SupData m X Y ℝ) :
    0 ≤ jmmdCompute big k r p q ∧ jmmdCompute big k r p p = 0 ∧
    ((∀ a b, k a b = k b a) → (∀ a b, r a b = r b a) → ∑ i, p.weights i ≠ 0 → ∑ i, q.weights i ≠ 0 →
      jmmdCompute big k r p q = jmmdCompute big k r q p) := by
  have hbs : ValidBlock (.leaf none) := by left; simp [PyTree.leaves]
  refine ⟨Real.sqrt_nonneg _, ?_, fun hk hr hp hq => ?_⟩
  · have h1 := C33_compute big k r hn hn p p (.leaf none) hbs
    rw [C07_self big _ hn _ _ hbs] at h1
    injection h1 with h1
    exact h1.symm
  · have h1 := C33_compute big k r hn hm p q (.leaf none) hbs
    rw [C07_symm big _ (fun a b => by simp only [tensorKernel]; rw [hk, hr]) hn hm (pairs p) (pairs q) hp hq _ _ hbs hbs,
      C33_compute big k r hm hn q p _ hbs] at h1
    injection h1 with h1
    exact h1.symm

example := C33_laws 1000 (fun a b : ℝ => a * b + 1) (fun a b : ℝ => a * b + 1) (by norm_num) (by norm_num) (⟨⟨![0, 1], ![1, 2]⟩, ![5, 7]⟩ : SupData 2 ℝ ℝ ℝ) (⟨⟨![4], ![1]⟩, ![5]⟩ : SupData 1 ℝ ℝ ℝ)

/-- Triangle inequality. -/
theorem C33_triangle (big : ℝ) (k : X → X → ℝ) (r : Y → Y → ℝ) (hk : IsPSD k) (hr : IsPSD r) {n m l : ℕ} (hn : 0 < n)
    (hm : 0 < m) (hl : 0 < l) (p : SupData n X Y ℝ) (q : SupData m X Y ℝ) (s : SupData l X Y ℝ)
    (hp : ∑ i, p.weights i ≠ 0) (hq : ∑ i, q.weights i ≠ 0) (hs : ∑ i, s.weights i ≠ 0) :
    jmmdCompute big k r p s ≤ jmmdCompute big k r p q + jmmdCompute big k r q s := by
  have hbs : ValidBlock (.leaf none) := by left; simp [PyTree.leaves]
  obtain ⟨a, b, c, ha, hb, hc, h⟩ := C07_triangle big _ (C33_tensor_psd k r hk hr) hn hm hl (pairs p) (pairs q) (pairs s)
    hp hq hs (.leaf none) hbs
  rw [C33_compute big k r hn hl p s _ hbs] at ha
  rw [C33_compute big k r hn hm p q _ hbs] at hb
  rw [C33_compute big k r hm hl q s _ hbs] at hc
  injection ha with ha; injection hb with hb; injection hc with hc
  rw [ha, hb, hc]
  exact h

/-- A concrete case with different joint distributions but equal marginals. -/
example : jmmdSquared (1000 : ℚ) (fun a b : ℚ => a * b) (fun a b : ℚ => a * b) ⟨⟨![1, -1], fun _ => 1⟩, ![1, -1]⟩
    ⟨⟨![1, -1], fun _ => 1⟩, ![-1, 1]⟩ = 4 := by decide +kernel

end Coreax
