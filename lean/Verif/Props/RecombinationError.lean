import Verif.Props.RecombinationCutoff
import Mathlib.Algebra.Order.BigOperators.Ring.Finset
import Mathlib.Tactic.Linarith
import Mathlib.Tactic.Positivity

/-!
# C69: what the cut-off for singular values does to the result of recombination

`_resolve_null_basis` treats singular values up to `rcond` times the largest one as zero.  The vectors that it returns are then dependences of the nodes only approximately.
-/

set_option linter.unusedSectionVars false

namespace Coreax

open Spec

variable {K : Type*} [Field K] [LinearOrder K] [IsStrictOrderedRing K] {n m : ℕ} [NeZero n]

/-- The nodes without the part that belongs to singular values up to `τ`. -/
def truncNodes (o : SvdOut n m K) (τ : K) (j : Fin n) (l : Fin m) : K :=
  ∑ i : Fin (min n m), o.q j (Fin.castLE (Nat.min_le_left n m) i) * (if τ < o.s i then o.s i else 0) * o.vt (Fin.castLE (Nat.min_le_right n m) i) l

theorem sum_sq_expand {ι κ : Type*} [Fintype ι] [Fintype κ] (a : ι → K) (v : ι → κ → K) :
    ∑ l, (∑ i, a i * v i l) ^ 2 = ∑ i, ∑ i', a i * a i' * ∑ l, v i l * v i' l := by
  have h : ∀ l, (∑ i, a i * v i l) ^ 2 = ∑ i, ∑ i', a i * a i' * (v i l * v i' l) := by
    intro l
    rw [sq, Finset.sum_mul_sum]
    exact Finset.sum_congr rfl fun i _ => Finset.sum_congr rfl fun i' _ => by ring
  simp only [h, Finset.mul_sum]
  rw [Finset.sum_comm]
  refine Finset.sum_congr rfl fun i _ => ?_
  rw [Finset.sum_comm]

/-- A combination of the nodes in terms of the singular value decomposition. -/
theorem combination_sq {q : Fin n → Fin n → K} {vt : Fin m → Fin m → K} (hv : ∀ a b, ∑ l, vt a l * vt b l = if a = b then 1 else 0) (s : Fin (min n m) → K) (z : Fin n → K) :
    ∑ l, (∑ j, z j * ∑ i : Fin (min n m), q j (Fin.castLE (Nat.min_le_left n m) i) * s i * vt (Fin.castLE (Nat.min_le_right n m) i) l) ^ 2
      = ∑ i : Fin (min n m), (s i * ∑ j, z j * q j (Fin.castLE (Nat.min_le_left n m) i)) ^ 2 := by
  have h1 : ∀ l, (∑ j, z j * ∑ i : Fin (min n m), q j (Fin.castLE (Nat.min_le_left n m) i) * s i * vt (Fin.castLE (Nat.min_le_right n m) i) l)
      = ∑ i : Fin (min n m), (s i * ∑ j, z j * q j (Fin.castLE (Nat.min_le_left n m) i)) * vt (Fin.castLE (Nat.min_le_right n m) i) l := by
    intro l
    simp only [Finset.mul_sum, Finset.sum_mul]
    rw [Finset.sum_comm]
    exact Finset.sum_congr rfl fun i _ => Finset.sum_congr rfl fun j _ => by ring
  simp only [h1]
  rw [sum_sq_expand]
  refine Finset.sum_congr rfl fun i _ => ?_
  rw [Finset.sum_eq_single i]
  · rw [hv, if_pos rfl, mul_one, sq]
  · intro b _ hb
    rw [hv, if_neg (fun h => hb ((Fin.castLE_injective _ h).symm)), mul_zero]
  · intro h; exact absurd (Finset.mem_univ _) h

/-- Bessel's inequality for the columns of an orthogonal matrix. -/
theorem bessel_cols {q : Fin n → Fin n → K} (hq : ∀ a b, ∑ j, q j a * q j b = if a = b then 1 else 0) (z : Fin n → K) :
    ∑ i : Fin (min n m), (∑ j, z j * q j (Fin.castLE (Nat.min_le_left n m) i)) ^ 2 ≤ ∑ j, z j ^ 2 := by
  have hrows : ∀ j k, ∑ a, q j a * q k a = if j = k then 1 else 0 := by
    have h1 : (Matrix.of q).transpose * Matrix.of q = 1 := by
      ext a b
      rw [Matrix.mul_apply, Matrix.one_apply]
      exact hq a b
    have h2 : Matrix.of q * (Matrix.of q).transpose = 1 := mul_eq_one_comm.1 h1
    intro j k
    have := congrFun (congrFun h2 j) k
    rwa [Matrix.mul_apply, Matrix.one_apply] at this
  have hall : ∑ a, (∑ j, z j * q j a) ^ 2 = ∑ j, z j ^ 2 := by
    rw [sum_sq_expand]
    refine Finset.sum_congr rfl fun j _ => ?_
    simp only [hrows, mul_ite, mul_one, mul_zero, Finset.sum_ite_eq, Finset.mem_univ, if_true]
    ring
  rw [← hall]
  have := Finset.sum_le_sum_of_subset_of_nonneg (f := fun a => (∑ j, z j * q j a) ^ 2)
    (Finset.subset_univ (Finset.univ.map ⟨Fin.castLE (Nat.min_le_left n m), Fin.castLE_injective _⟩)) (fun _ _ _ => sq_nonneg _)
  simpa using this

/-- A dependence of the truncated nodes is one of the nodes up to `τ` times its length. -/
theorem trunc_error {nodes : Fin n → Fin m → K} {o : SvdOut n m K} (h : IsSvd nodes o) {τ : K} {z : Fin n → K} (hz : LeftNull (truncNodes o τ) z) :
    ∑ l, (∑ j, z j * nodes j l) ^ 2 ≤ τ ^ 2 * ∑ j, z j ^ 2 := by
  have h1 : ∀ l, ∑ j, z j * nodes j l
      = ∑ j, z j * ∑ i : Fin (min n m), o.q j (Fin.castLE (Nat.min_le_left n m) i) * (if τ < o.s i then 0 else o.s i) * o.vt (Fin.castLE (Nat.min_le_right n m) i) l := by
    intro l
    have h2 := hz l
    rw [← sub_zero (∑ j, z j * nodes j l)]
    conv_lhs => rw [← h2]
    rw [← Finset.sum_sub_distrib]
    refine Finset.sum_congr rfl fun j _ => ?_
    rw [h.eq, truncNodes, ← mul_sub, ← Finset.sum_sub_distrib]
    congr 1
    refine Finset.sum_congr rfl fun i _ => ?_
    split_ifs <;> ring
  simp only [h1]
  rw [combination_sq h.orthoV (fun i => if τ < o.s i then 0 else o.s i) z]
  refine le_trans ?_ (mul_le_mul_of_nonneg_left (bessel_cols (m := m) h.orthoQ z) (sq_nonneg τ))
  rw [Finset.mul_sum]
  refine Finset.sum_le_sum fun i _ => ?_
  rw [mul_pow]
  refine mul_le_mul_of_nonneg_right ?_ (sq_nonneg _)
  split_ifs with hi
  · simpa using sq_nonneg τ
  · exact pow_le_pow_left₀ (h.nonneg i) (not_lt.1 hi) 2

/-- The largest singular value is at most the Frobenius norm. -/
theorem singular_le {nodes : Fin n → Fin m → K} {o : SvdOut n m K} (h : IsSvd nodes o) {S : K} (hS : 0 ≤ S) (hF : ∑ j, ∑ l, nodes j l ^ 2 ≤ S ^ 2) (i : Fin (min n m)) : o.s i ≤ S := by
  refine le_of_sq_le_sq ?_ hS
  refine le_trans ?_ hF
  have h1 := combination_sq (q := o.q) h.orthoV o.s (fun j => o.q j (Fin.castLE (Nat.min_le_left n m) i))
  simp only [← h.eq] at h1
  have h2 : o.s i ^ 2 ≤ ∑ l, (∑ j, o.q j (Fin.castLE (Nat.min_le_left n m) i) * nodes j l) ^ 2 := by
    rw [h1]
    have := Finset.single_le_sum (f := fun k => (o.s k * ∑ j, o.q j (Fin.castLE (Nat.min_le_left n m) i) * o.q j (Fin.castLE (Nat.min_le_left n m) k)) ^ 2)
      (fun _ _ => sq_nonneg _) (Finset.mem_univ i)
    rw [h.orthoQ, if_pos rfl, mul_one] at this
    exact this
  refine h2.trans ?_
  rw [Finset.sum_comm]
  refine Finset.sum_le_sum fun l _ => ?_
  refine (Finset.sum_mul_sq_le_sq_mul_sq _ _ _).trans ?_
  have := h.orthoQ (Fin.castLE (Nat.min_le_left n m) i) (Fin.castLE (Nat.min_le_left n m) i)
  rw [if_pos rfl] at this
  simp only [sq] at this ⊢
  rw [this, one_mul]

/-- The basis that is returned spans exactly the dependences of the truncated nodes. -/
theorem trunc_basis (svd : ∀ n m, (Fin n → Fin m → K) → SvdOut n m K) (eps : K) (rcond : Option K) (nodes : Fin n → Fin m → K) (h : IsSvd nodes (svd n m nodes))
    (hτ : 0 ≤ svdCutoff eps rcond (svd n m nodes).s) :
    NullBasis (truncNodes (svd n m nodes) (svdCutoff eps rcond (svd n m nodes).s)) (resolveNullBasis svd eps rcond n m nodes).1 (resolveNullBasis svd eps rcond n m nodes).2 := by
  set o := svd n m nodes with ho
  set τ := svdCutoff eps rcond o.s with hτd
  let o' : SvdOut n m K := ⟨o.q, fun i => if τ < o.s i then o.s i else 0, o.vt⟩
  let svd' : ∀ n m, (Fin n → Fin m → K) → SvdOut n m K := fun a b _ =>
    if hab : a = n ∧ b = m then hab.1 ▸ hab.2 ▸ o' else ⟨fun _ _ => 0, fun _ => 0, fun _ _ => 0⟩
  have hs' : ∀ N, svd' n m N = o' := fun N => by simp [svd']
  have hsvd : IsSvd (truncNodes o τ) (svd' n m (truncNodes o τ)) := by
    rw [hs' (truncNodes o τ)]
    refine ⟨h.orthoQ, h.orthoV, fun i => ?_, fun i j hij => ?_, fun j l => rfl⟩
    · change 0 ≤ if τ < o.s i then o.s i else 0
      split_ifs
      exacts [h.nonneg i, le_rfl]
    · change (if τ < o.s j then o.s j else 0) ≤ if τ < o.s i then o.s i else 0
      have := h.anti i j hij
      split_ifs with h1 h2 h2
      · exact this
      · exact absurd (h1.trans_le this) h2
      · exact h.nonneg i
      · exact le_rfl
  have := C25_zero_rcond svd' eps (truncNodes o τ) hsvd
  have e1 : (resolveNullBasis svd' eps (some 0) n m (truncNodes o τ)).1 = (resolveNullBasis svd eps rcond n m nodes).1 := by
    simp only [resolveNullBasis]
    rw [hs' (truncNodes o τ)]
  have e2 : (resolveNullBasis svd' eps (some 0) n m (truncNodes o τ)).2 = (resolveNullBasis svd eps rcond n m nodes).2 := by
    have hc0 : svdCutoff eps (some 0) o'.s = 0 := by
      unfold svdCutoff nodesRcond
      split <;> simp
    simp only [resolveNullBasis, hs', hc0]
    congr 2
    refine Finset.filter_congr fun i _ => ?_
    change (0 < if τ < o.s i then o.s i else 0) ↔ τ < o.s i
    split_ifs with h1
    · exact ⟨fun _ => h1, fun _ => lt_of_le_of_lt hτ h1⟩
    · exact ⟨fun h => absurd h (lt_irrefl _), fun h => absurd h h1⟩
  rwa [e1, e2] at this

/-- With a cut-off below one every dependence of the truncated nodes has a positive entry. -/
theorem trunc_pos {nodes : Fin n → Fin m → K} (hone : ∃ l, ∀ j, nodes j l = 1) {o : SvdOut n m K} (h : IsSvd nodes o) {τ : K} (hτ0 : 0 ≤ τ) (hτ : τ < 1) (v : Fin n → K)
    (hv : LeftNull (truncNodes o τ) v) (hne : ∃ j, v j ≠ 0) : ∃ j, 0 < v j := by
  by_contra hc
  push Not at hc
  obtain ⟨l, hl⟩ := hone
  have h1 := trunc_error h hv
  have h2 : (∑ j, v j) ^ 2 ≤ ∑ l, (∑ j, v j * nodes j l) ^ 2 := by
    have := Finset.single_le_sum (f := fun l => (∑ j, v j * nodes j l) ^ 2) (fun _ _ => sq_nonneg _) (Finset.mem_univ l)
    simpa [hl] using this
  have h3 : ∑ j, v j ^ 2 ≤ (∑ j, v j) ^ 2 := by
    have := Finset.sum_sq_le_sq_sum_of_nonneg (s := Finset.univ) (f := fun j => -v j) fun j _ => neg_nonneg.2 (hc j)
    simpa using this
  obtain ⟨j, hj⟩ := hne
  have h4 : 0 < ∑ j, v j ^ 2 := Finset.sum_pos' (fun _ _ => sq_nonneg _) ⟨j, Finset.mem_univ j, by positivity⟩
  have h5 : τ ^ 2 < 1 := by nlinarith
  nlinarith

/-- Equal nodes stay equal when truncated. -/
theorem trunc_row {nodes : Fin n → Fin m → K} {o : SvdOut n m K} (h : IsSvd nodes o) (τ : K) {a b : Fin n} (hab : nodes a = nodes b) : truncNodes o τ a = truncNodes o τ b := by
  have key : ∀ (j : Fin n) (i : Fin (min n m)), o.q j (Fin.castLE (Nat.min_le_left n m) i) * o.s i = ∑ l, nodes j l * o.vt (Fin.castLE (Nat.min_le_right n m) i) l := by
    intro j i
    simp only [h.eq j, Finset.sum_mul]
    rw [Finset.sum_comm, Finset.sum_eq_single i]
    · have := h.orthoV (Fin.castLE (Nat.min_le_right n m) i) (Fin.castLE (Nat.min_le_right n m) i)
      rw [if_pos rfl] at this
      simp only [mul_assoc, ← Finset.mul_sum]
      rw [this, mul_one]
    · intro c _ hc
      have := h.orthoV (Fin.castLE (Nat.min_le_right n m) c) (Fin.castLE (Nat.min_le_right n m) i)
      rw [if_neg (fun h => hc (Fin.castLE_injective _ h))] at this
      simp only [mul_assoc, ← Finset.mul_sum]
      rw [this, mul_zero, mul_zero]
    · intro hk; exact absurd (Finset.mem_univ _) hk
  funext l
  unfold truncNodes
  refine Finset.sum_congr rfl fun i _ => ?_
  split_ifs
  · rw [key a i, key b i, hab]
  · rw [mul_zero, mul_zero]

/-- The tolerance that the code takes for singular values. -/
def recombTolerance (svd : ∀ n m, (Fin n → Fin m → K) → SvdOut n m K) (eps : K) (rcond : Option K) (nodes : Fin n → Fin m → K) : K := svdCutoff eps rcond (svd n m nodes).s

/-- What the elimination computes with a cut-off. -/
theorem caraWeights_cutoff {X : Type*} (big : K) (svd : ∀ n m, (Fin n → Fin m → K) → SvdOut n m K) (eps : K) (rcond : Option K) (test : X → Fin m → K) (d : Data n X K)
    (hw : ∀ t, 0 ≤ d.weights t) (hpos : ∃ t, 0 < d.weights t) (hsvd : IsSvd (caraNodes big test d) (svd n (m + 1) (caraNodes big test d)))
    (hτ0 : 0 ≤ recombTolerance svd eps rcond (caraNodes big test d)) (hτ1 : recombTolerance svd eps rcond (caraNodes big test d) < 1) :
    ∃ out : Fin n → K, caraWeights big (resolveNullBasis svd eps rcond) test d = some out ∧ (∀ t, 0 ≤ out t) ∧
      (∑ l, (∑ t, out t * caraNodes big test d t l - ∑ t, d.weights t / (∑ j, d.weights j) * augment (test (d.data t)) l) ^ 2
        ≤ (recombTolerance svd eps rcond (caraNodes big test d) * (∑ t, out t + 1)) ^ 2) ∧
      (Finset.univ.filter (fun t => out t ≠ 0)).card
        ≤ (Finset.univ.filter (fun i => recombTolerance svd eps rcond (caraNodes big test d) < (svd n (m + 1) (caraNodes big test d)).s i)).card ∧
      (∀ s t, out s ≠ 0 → out t ≠ 0 → colinIdx (d.normalizePZ big).weights s = colinIdx (d.normalizePZ big).weights t → s = t) := by
  obtain ⟨e, hs, hnn, hp, -⟩ := normalized_pos big d hw hpos
  set w := (d.normalizePZ big).weights with hwdef
  set nodes := caraNodes big test d with hnodes
  set τ := recombTolerance svd eps rcond nodes with hτ
  have hone : ∃ l, ∀ j, nodes j l = 1 := ⟨0, fun j => rfl⟩
  have hbasis := trunc_basis svd eps rcond nodes hsvd hτ0
  have hwp := colinWeights_pos hp
  obtain ⟨st, E, h1, h2⟩ := elimLoop_spec_of_pos (nodes := truncNodes (svd n (m + 1) nodes) τ) (fun v hv hne => trunc_pos hone hsvd hτ0 hτ1 v hv hne)
    (w0 := colinWeights w) (fun j => (hwp j).le) hbasis
  have hsum : ∑ t, colinWeights w t = 1 := by
    have := colin_sum hnn hp (fun _ => (1 : K))
    simp only [mul_one] at this
    rw [this]
    simp only [e]
    rw [← Finset.sum_div, div_self hs.ne']
  refine ⟨st.weights, ?_, h2.nonneg, ?_, ?_, ?_⟩
  · unfold caraWeights
    simp only
    rw [show (fun t => augment (test (d.data (colinIdx (d.normalizePZ big).weights t)))) = nodes from rfl, h1]
    rfl
  · have hz : LeftNull (truncNodes (svd n (m + 1) nodes) τ) (fun t => st.weights t - colinWeights w t) := by
      intro l
      have := h2.sum l
      simp only [sub_mul, Finset.sum_sub_distrib]
      rw [this, sub_self]
    have h3 := trunc_error hsvd hz
    have h4 : ∀ l, ∑ t, (st.weights t - colinWeights w t) * nodes t l
        = ∑ t, st.weights t * nodes t l - ∑ t, d.weights t / (∑ j, d.weights j) * augment (test (d.data t)) l := by
      intro l
      have := colin_sum hnn hp (fun t => augment (test (d.data t)) l)
      simp only [e] at this
      simp only [sub_mul, Finset.sum_sub_distrib]
      rw [← this]
      rfl
    simp only [h4] at h3
    refine h3.trans ?_
    rw [mul_pow]
    refine mul_le_mul_of_nonneg_left ?_ (sq_nonneg τ)
    have h5 : ∑ t, (st.weights t - colinWeights w t) ^ 2 ≤ ∑ t, (st.weights t + colinWeights w t) ^ 2 :=
      Finset.sum_le_sum fun t _ => by nlinarith [mul_nonneg (h2.nonneg t) (hwp t).le]
    refine h5.trans ?_
    have h6 := Finset.sum_sq_le_sq_sum_of_nonneg (s := Finset.univ) (f := fun t => st.weights t + colinWeights w t) fun t _ => add_nonneg (h2.nonneg t) (hwp t).le
    rwa [Finset.sum_add_distrib, hsum] at h6
  · have hsub : Finset.univ.filter (fun t => st.weights t ≠ 0) ⊆ Finset.univ \ E := by
      intro t ht
      simp only [Finset.mem_filter, Finset.mem_univ, true_and] at ht
      simp only [Finset.mem_sdiff, Finset.mem_univ, true_and]
      exact fun hE => ht (h2.gone t hE).1
    have h3 := Finset.card_le_card hsub
    rw [Finset.card_sdiff_of_subset (Finset.subset_univ E), h2.card, Finset.card_univ, Fintype.card_fin] at h3
    refine h3.trans ?_
    simp only [resolveNullBasis]
    change n - (n - (Finset.univ.filter (fun i => τ < (svd n (m + 1) nodes).s i)).card) ≤ _
    omega
  · intro a b ha hb hab
    by_contra hne
    have hrow : nodes a = nodes b := by
      change augment (test (d.data (colinIdx w a))) = augment (test (d.data (colinIdx w b)))
      rw [hab]
    have hind : IndepOn (truncNodes (svd n (m + 1) nodes) τ) (fun t => st.weights t ≠ 0) := by
      intro z hz hzn
      obtain ⟨c, hc, hcz⟩ := h2.span z hzn (fun t hE => hz t (by simpa using (h2.gone t hE).1))
      have hc0 : ∀ k, c k = 0 := fun k => hc k (by omega)
      intro j
      rw [hcz j]
      exact Finset.sum_eq_zero fun k _ => by rw [hc0 k, zero_mul]
    have h5 := hind (fun t => if t = a then 1 else if t = b then -1 else 0) (fun t ht => ?_) (fun l => ?_) a
    · simp at h5
    · have hta : t ≠ a := fun h => ht (h ▸ ha)
      have htb : t ≠ b := fun h => ht (h ▸ hb)
      simp [hta, htb]
    · rw [Finset.sum_eq_add a b hne]
      · simp only [if_true, if_neg (Ne.symm hne)]
        rw [trunc_row hsvd τ hrow]
        ring
      · intro c _ hc
        simp [hc.1, hc.2]
      · intro h; exact absurd (Finset.mem_univ _) h
      · intro h; exact absurd (Finset.mem_univ _) h

/-- C69: the cut-off `τ` (that is `rcond` times the largest singular value of the matrix of test-function values) costs accuracy, but no more than this: if `τ < 1`, recombination returns a coreset with
non-negative weights on distinct rows of positive weight, at most as many as there are singular values above `τ`; its mass is within `(1 - τ)/(1 + τ)` and `(1 + τ)/(1 - τ)`, and every test function has its weighted sum
within `2 τ / (1 - τ)` of the mean over the data.  This holds in every output mode; for `τ = 0` it is exactness. -/
theorem C69_error {X : Type*} (big : K) (svd : ∀ n m, (Fin n → Fin m → K) → SvdOut n m K) (eps : K) (rcond : Option K) (test : X → Fin m → K) (mode : RecombMode) (d : Data n X K)
    (hw : ∀ t, 0 ≤ d.weights t) (hpos : ∃ t, 0 < d.weights t) (hsvd : IsSvd (caraNodes big test d) (svd n (m + 1) (caraNodes big test d))) (τ : K)
    (hτ : τ = recombTolerance svd eps rcond (caraNodes big test d)) (hτ0 : 0 ≤ τ) (hτ1 : τ < 1) :
    ∃ (k : ℕ) (c : Data k ℤ K), caraReduce big (resolveNullBasis svd eps rcond) test mode d = some ⟨k, c⟩ ∧ k ≤ n ∧ (∀ t, 0 ≤ c.weights t) ∧
      (∀ t, ∃ i : Fin n, c.data t = ((i : ℕ) : ℤ) ∧ 0 < d.weights i) ∧
      (supportRows c).Nodup ∧ (support c).length ≤ (Finset.univ.filter (fun i => τ < (svd n (m + 1) (caraNodes big test d)).s i)).card ∧
      (1 - τ) / (1 + τ) ≤ ∑ t, c.weights t ∧ ∑ t, c.weights t ≤ (1 + τ) / (1 - τ) ∧
      ∀ l, |∑ t, c.weights t * test (d.data (gatherIdx n (c.data t))) l - (∑ t, d.weights t * test (d.data t) l) / ∑ t, d.weights t| ≤ 2 * τ / (1 - τ) := by
  obtain ⟨out, h1, h2, h3, h4, hinj⟩ := caraWeights_cutoff big svd eps rcond test d hw hpos hsvd (hτ ▸ hτ0) (hτ ▸ hτ1)
  obtain ⟨e, hs, hnn, hp, hiff⟩ := normalized_pos big d hw hpos
  rw [← hτ] at h3 h4
  set w := (d.normalizePZ big).weights with hwdef
  set idx : Fin n → ℤ := fun t => ((colinIdx w t : ℕ) : ℤ) with hidx
  have hlen : (flatNonzero out).length ≤ min n (m + 1) := by
    rw [length_flatNonzero]
    refine h4.trans ?_
    simpa using Finset.card_le_univ (Finset.univ.filter (fun i => τ < (svd n (m + 1) (caraNodes big test d)).s i))
  have hint := fun g => integral_coresubsetNodes out h2 idx hlen le_rfl mode g
  have hM0 : 0 ≤ ∑ t, out t := Finset.sum_nonneg fun t _ => h2 t
  have hl : ∀ l, |∑ t, out t * caraNodes big test d t l - ∑ t, d.weights t / (∑ j, d.weights j) * augment (test (d.data t)) l| ≤ τ * (∑ t, out t + 1) := by
    intro l
    refine abs_le_of_sq_le_sq ?_ (by positivity)
    refine le_trans ?_ h3
    exact Finset.single_le_sum (f := fun l => (∑ t, out t * caraNodes big test d t l - ∑ t, d.weights t / (∑ j, d.weights j) * augment (test (d.data t)) l) ^ 2)
      (fun _ _ => sq_nonneg _) (Finset.mem_univ l)
  have hmass := hl 0
  simp only [caraNodes, augment, Fin.cons_zero, mul_one] at hmass
  rw [← Finset.sum_div, div_self hs.ne', abs_le] at hmass
  have hM2 : (∑ t, out t) * (1 - τ) ≤ 1 + τ := by linarith [hmass.2]
  have hM1 : 1 - τ ≤ (∑ t, out t) * (1 + τ) := by linarith [hmass.1]
  refine ⟨_, (coresubsetNodes n (m + 1) out idx mode).2, ?_, ?_, ?_, ?_, ?_, ?_, ?_, ?_, ?_⟩
  · unfold caraReduce
    rw [h1]
    rfl
  · cases mode with
    | implicitExplicit => exact min_le_left _ _
    | implicit => exact le_rfl
    | explicit => exact hlen.trans (min_le_left _ _)
  · intro t
    obtain ⟨s, -, hs⟩ := coresubsetNodes_mem out idx n (m + 1) mode t
    rw [hs]
    exact h2 s
  · intro t
    obtain ⟨s, hs, -⟩ := coresubsetNodes_mem out idx n (m + 1) mode t
    exact ⟨_, hs, (hiff _).1 (colinIdx_pos hp s)⟩
  · unfold supportRows
    rw [support_coresubsetNodes out h2 idx hlen le_rfl mode, List.map_map]
    refine List.Nodup.map_on ?_ (nodup_flatNonzero out)
    intro a ha b hb hab
    simp only [hidx, Function.comp] at hab
    exact hinj a b (mem_flatNonzero.1 ha) (mem_flatNonzero.1 hb) (Fin.ext (by exact_mod_cast hab))
  · rw [support_coresubsetNodes out h2 idx hlen le_rfl mode]
    simpa [length_flatNonzero] using h4
  · have h6 := hint (fun _ => 1)
    unfold integral at h6
    simp only [mul_one] at h6
    rw [h6, div_le_iff₀ (by linarith)]
    exact hM1
  · have h6 := hint (fun _ => 1)
    unfold integral at h6
    simp only [mul_one] at h6
    rw [h6, le_div_iff₀ (by linarith)]
    exact hM2
  · intro l
    have h6 := hint (fun i => test (d.data (gatherIdx n i)) l)
    unfold integral at h6
    rw [h6]
    have h7 := hl l.succ
    simp only [caraNodes, augment, Fin.cons_succ] at h7
    rw [← hwdef] at h7
    simp only [hidx, gatherIdx_coe]
    have h8 : (∑ t, d.weights t * test (d.data t) l) / ∑ t, d.weights t = ∑ t, d.weights t / (∑ j, d.weights j) * test (d.data t) l := by
      rw [Finset.sum_div]
      exact Finset.sum_congr rfl fun t _ => by ring
    rw [h8]
    refine h7.trans ?_
    rw [le_div_iff₀ (by linarith)]
    nlinarith

/-- C69: the cut-off in terms of the data: with test functions bounded by `B` on the rows of positive weight it is at most `tol * S` for every `S ≥ 0` with `n (1 + m B²) ≤ S²`, where `tol` is the relative
tolerance: the machine epsilon times the longer side by default, the machine epsilon for a negative `rcond`, `rcond` itself otherwise. -/
theorem C69_tolerance {X : Type*} (big : K) (svd : ∀ n m, (Fin n → Fin m → K) → SvdOut n m K) (eps : K) (heps : 0 ≤ eps) (rcond : Option K) (test : X → Fin m → K) (d : Data n X K)
    (hw : ∀ t, 0 ≤ d.weights t) (hpos : ∃ t, 0 < d.weights t) (hsvd : IsSvd (caraNodes big test d) (svd n (m + 1) (caraNodes big test d))) (B S : K) (hS : 0 ≤ S)
    (hB : ∀ t, 0 < d.weights t → ∀ l, |test (d.data t) l| ≤ B) (hBS : (n : K) * (1 + m * B ^ 2) ≤ S ^ 2) (tol : K)
    (h1 : rcond = none → tol = eps * max (n : K) ((m : K) + 1)) (h2 : ∀ r, rcond = some r → r < 0 → tol = eps) (h3 : ∀ r, rcond = some r → 0 ≤ r → tol = r) :
    0 ≤ recombTolerance svd eps rcond (caraNodes big test d) ∧ recombTolerance svd eps rcond (caraNodes big test d) ≤ tol * S := by
  have hmin : 0 < min n (m + 1) := lt_min (Nat.pos_of_ne_zero (NeZero.ne n)) (Nat.succ_pos m)
  have ht : nodesRcond eps n (m + 1) rcond = tol ∧ 0 ≤ tol := by
    rcases rcond with _ | r
    · rw [h1 rfl]
      exact ⟨by simp [nodesRcond], mul_nonneg heps (le_max_of_le_left (Nat.cast_nonneg n))⟩
    · rcases lt_or_ge r 0 with h | h
      · rw [h2 r rfl h]; exact ⟨by simp [nodesRcond, h], heps⟩
      · rw [h3 r rfl h]; exact ⟨by simp [nodesRcond, not_lt.2 h], h⟩
  have hcut : recombTolerance svd eps rcond (caraNodes big test d) = tol * (svd n (m + 1) (caraNodes big test d)).s ⟨0, hmin⟩ := by
    simp only [recombTolerance, svdCutoff, dif_pos hmin]
    rw [ht.1]
  rw [hcut]
  refine ⟨mul_nonneg ht.2 (hsvd.nonneg _), mul_le_mul_of_nonneg_left (singular_le hsvd hS ?_ _) ht.2⟩
  refine le_trans ?_ hBS
  obtain ⟨e, hs, hnn, hp, hiff⟩ := normalized_pos big d hw hpos
  have hrow : ∀ j, ∑ l, caraNodes big test d j l ^ 2 ≤ 1 + m * B ^ 2 := by
    intro j
    rw [Fin.sum_univ_succ]
    simp only [caraNodes, augment, Fin.cons_zero, Fin.cons_succ, one_pow]
    have : ∑ l : Fin m, test (d.data (colinIdx (d.normalizePZ big).weights j)) l ^ 2 ≤ ∑ _l : Fin m, B ^ 2 := by
      refine Finset.sum_le_sum fun l _ => ?_
      rw [← sq_abs]
      exact pow_le_pow_left₀ (abs_nonneg _) (hB _ ((hiff _).1 (colinIdx_pos hp j)) l) 2
    simp only [Finset.sum_const, Finset.card_univ, Fintype.card_fin, nsmul_eq_mul] at this
    linarith
  refine (Finset.sum_le_sum fun j _ => hrow j).trans (le_of_eq ?_)
  simp only [Finset.sum_const, Finset.card_univ, Fintype.card_fin, nsmul_eq_mul]

/-! ### Beyond that the mass is lost -/

/-- Four rows with the values `B`, `B`, `-B`, `-B` of one test function. -/
def largeRows (B : ℚ) : Data 4 ℚ ℚ := ⟨![B, B, -B, -B], fun _ => 1⟩

/-- A decomposition of their nodes; the sign of the second column of `q` is not determined by the nodes. -/
def largeSvd (σ B : ℚ) : SvdOut 4 2 ℚ :=
  { q := fun j => ![![1, σ, 1, 1], ![1, σ, -1, -1], ![-1, σ, 1, -1], ![-1, σ, -1, 1]] j * (fun _ => 1 / 2), s := ![2 * B, 2], vt := ![![0, 1], ![σ, 0]] }

/-- The decomposition as a function. -/
def largeSvdFun (σ B : ℚ) : ∀ n m, (Fin n → Fin m → ℚ) → SvdOut n m ℚ := fun a b _ =>
  if h : a = 4 ∧ b = 2 then h.1 ▸ h.2 ▸ largeSvd σ B else ⟨fun _ _ => 0, fun _ => 0, fun _ _ => 0⟩

theorem largeWeights (B : ℚ) : ((largeRows B).normalizePZ 1000).weights = fun _ => 1 / 4 := by
  funext t
  have hsum : ∑ j, (largeRows B).weights j ≠ 0 := by simp [largeRows]
  have := normWeightsPZ_of_sum_ne (1000 : ℚ) hsum t
  rw [show ((largeRows B).normalizePZ 1000).weights t = _ from this]
  norm_num [largeRows]

theorem largeNodes (B : ℚ) : caraNodes 1000 (fun x _ => x : ℚ → Fin 1 → ℚ) (largeRows B) = ![![1, B], ![1, B], ![1, -B], ![1, -B]] := by
  have h1 := largeWeights B
  have h2 : colinIdx ((largeRows B).normalizePZ 1000).weights = id := (C28_colinearize_id _ fun t => by rw [h1]; norm_num).1
  funext t l
  simp only [caraNodes, h2, id]
  fin_cases t <;> fin_cases l <;> rfl

theorem largeSvd_isSvd {σ B : ℚ} (hσ : σ ^ 2 = 1) (hB : 1 ≤ B) : IsSvd ![![1, B], ![1, B], ![1, -B], ![1, -B]] (largeSvd σ B) := by
  have hσ' : σ * σ = 1 := by rw [← sq, hσ]
  refine ⟨fun a b => ?_, fun a b => ?_, fun i => ?_, fun i j hij => ?_, fun j l => ?_⟩
  · fin_cases a <;> fin_cases b <;> simp [largeSvd, Fin.sum_univ_four] <;> linarith
  · fin_cases a <;> fin_cases b <;> simp [largeSvd, hσ']
  · change 0 ≤ (![2 * B, 2] : Fin 2 → ℚ) i
    fin_cases i <;> simp <;> linarith
  · change (![2 * B, 2] : Fin 2 → ℚ) j ≤ (![2 * B, 2] : Fin 2 → ℚ) i
    revert hij
    fin_cases i <;> fin_cases j <;> simp <;> linarith
  · change _ = ∑ i : Fin 2, (largeSvd σ B).q j (Fin.castLE (by decide) i) * (![2 * B, 2] : Fin 2 → ℚ) i * (![![0, 1], ![σ, 0]] : Fin 2 → Fin 2 → ℚ) (Fin.castLE (by decide) i) l
    fin_cases j <;> fin_cases l <;> simp [largeSvd, Fin.sum_univ_two] <;> linarith

/-- C69: with test-function values of `1/rcond` and more (a few millions in single precision) the constant function falls below the cut-off.  Four such rows with equal weights are reduced to a coreset of mass
zero, or to NaN: the sign of a singular vector decides, which the library leaves to the linear-algebra routine. -/
theorem C69_mass_lost (eps r B : ℚ) (hr : 0 < r) (hr1 : r < 1) (hB : 1 ≤ B) (hrB : 1 ≤ r * B) (mode : RecombMode) :
    (IsSvd (caraNodes 1000 (fun x _ => x : ℚ → Fin 1 → ℚ) (largeRows B)) (largeSvdFun 1 B 4 2 (caraNodes 1000 (fun x _ => x : ℚ → Fin 1 → ℚ) (largeRows B))) ∧
      ∃ k c, caraReduce 1000 (resolveNullBasis (largeSvdFun 1 B) eps (some r)) (fun x _ => x : ℚ → Fin 1 → ℚ) mode (largeRows B) = some ⟨k, c⟩ ∧ ∀ t, c.weights t = 0) ∧
    (IsSvd (caraNodes 1000 (fun x _ => x : ℚ → Fin 1 → ℚ) (largeRows B)) (largeSvdFun (-1) B 4 2 (caraNodes 1000 (fun x _ => x : ℚ → Fin 1 → ℚ) (largeRows B))) ∧
      caraReduce 1000 (resolveNullBasis (largeSvdFun (-1) B) eps (some r)) (fun x _ => x : ℚ → Fin 1 → ℚ) mode (largeRows B) = none) := by
  have hf : ∀ σ N, largeSvdFun σ B 4 2 N = largeSvd σ B := fun σ N => by simp [largeSvdFun]
  have hrank : ∀ σ N, resolveNullBasis (largeSvdFun σ B) eps (some r) 4 2 N = (fun i j => (largeSvd σ 1).q j i.rev, 3) := by
    intro σ N
    have hcut : svdCutoff eps (some r) (largeSvd σ B).s = r * (2 * B) := by
      simp only [svdCutoff, nodesRcond, not_lt.2 hr.le, if_false]
      rfl
    have hset : Finset.univ.filter (fun i : Fin 2 => r * (2 * B) < (![2 * B, 2] : Fin 2 → ℚ) i) = {0} := by
      ext i
      simp only [Finset.mem_filter, Finset.mem_univ, true_and, Finset.mem_singleton]
      fin_cases i
      · simp only [Fin.zero_eta, Matrix.cons_val_zero, iff_true]
        nlinarith
      · simp only [Fin.mk_one, Matrix.cons_val_one, Matrix.cons_val_fin_one, one_ne_zero, iff_false, not_lt]
        linarith
    have hcard : (Finset.univ.filter (fun i => r * (2 * B) < (largeSvd σ B).s i)).card = 1 := by
      change (Finset.univ.filter (fun i : Fin 2 => r * (2 * B) < (![2 * B, 2] : Fin 2 → ℚ) i)).card = 1
      rw [hset]
      rfl
    simp only [resolveNullBasis]
    rw [hf σ N, hcut, hcard]
    rfl
  have hrun : ∀ σ, caraReduce 1000 (resolveNullBasis (largeSvdFun σ B) eps (some r)) (fun x _ => x : ℚ → Fin 1 → ℚ) mode (largeRows B)
      = ((elimLoop 3 ⟨colinWeights (fun _ : Fin 4 => (1 / 4 : ℚ)), fun i j => (largeSvd σ 1).q j i.rev⟩).map ElimState.weights).map (fun out =>
        coresubsetNodes 4 2 out (fun t => ((colinIdx (fun _ : Fin 4 => (1 / 4 : ℚ)) t : ℕ) : ℤ)) mode) := by
    intro σ
    unfold caraReduce caraWeights
    simp only [largeWeights]
    rw [hrank]
  refine ⟨⟨?_, ?_⟩, ?_, ?_⟩
  · rw [hf, largeNodes]
    exact largeSvd_isSvd (by norm_num) hB
  · have h0 : (elimLoop 3 ⟨colinWeights (fun _ : Fin 4 => (1 / 4 : ℚ)), fun i j => (largeSvd 1 1).q j i.rev⟩).map ElimState.weights = some fun _ => 0 := by
      decide +kernel
    rw [hrun, h0]
    refine ⟨_, _, rfl, fun t => ?_⟩
    obtain ⟨s, -, hs⟩ := coresubsetNodes_mem (fun _ : Fin 4 => (0 : ℚ)) (fun t => ((colinIdx (fun _ : Fin 4 => (1 / 4 : ℚ)) t : ℕ) : ℤ)) 4 2 mode t
    exact hs
  · rw [hf, largeNodes]
    exact largeSvd_isSvd (by norm_num) hB
  · have h0 : ((elimLoop 3 ⟨colinWeights (fun _ : Fin 4 => (1 / 4 : ℚ)), fun i j => (largeSvd (-1) 1).q j i.rev⟩).map ElimState.weights).isNone = true := by
      decide +kernel
    rw [hrun, Option.isNone_iff_eq_none.1 h0]
    rfl

/-- The two theorems do not contradict each other: there `τ = 2 r B`, at least `2`. -/
example : recombTolerance (largeSvdFun 1 1000) 0 (some (1 / 1000)) (caraNodes 1000 (fun x _ => x : ℚ → Fin 1 → ℚ) (largeRows 1000)) = 2 := by decide +kernel

/-! ### An example of a harmless cut -/

/-- Four rows close to each other: the second singular value is `1/25`. -/
def smallRows : Data 4 ℚ ℚ := ⟨![1 / 50, 1 / 50, -1 / 50, -1 / 50], fun _ => 1⟩

/-- A decomposition of their nodes. -/
def smallSvd : ∀ n m, (Fin n → Fin m → ℚ) → SvdOut n m ℚ := fun a b _ =>
  if h : a = 4 ∧ b = 2 then h.1 ▸ h.2 ▸
    ({ q := fun j => ![![1, 1, 1, 1], ![1, 1, -1, -1], ![1, -1, 1, -1], ![1, -1, -1, 1]] j * (fun _ => 1 / 2), s := ![2, 1 / 25], vt := ![![1, 0], ![0, 1]] } : SvdOut 4 2 ℚ)
  else ⟨fun _ _ => 0, fun _ => 0, fun _ _ => 0⟩

theorem smallSvd_isSvd : IsSvd (caraNodes 1000 (fun x _ => x : ℚ → Fin 1 → ℚ) smallRows) (smallSvd 4 2 (caraNodes 1000 (fun x _ => x : ℚ → Fin 1 → ℚ) smallRows)) := by
  refine ⟨?_, ?_, ?_, ?_, ?_⟩ <;> decide +kernel

/-- With `rcond=1/50` the cut-off is `1/25`, so one row carries all the weight; its value, `1/50` or `-1/50`, differs from the mean 0 by less than `2 τ / (1 - τ) = 1/12`. -/
example : recombTolerance smallSvd 0 (some (1 / 50)) (caraNodes 1000 (fun x _ => x : ℚ → Fin 1 → ℚ) smallRows) = 1 / 25 ∧
    (Finset.univ.filter (fun i => 1 / 25 < (smallSvd 4 2 (caraNodes 1000 (fun x _ => x : ℚ → Fin 1 → ℚ) smallRows)).s i)).card = 1 := by decide +kernel

example : (caraReduce 1000 (resolveNullBasis smallSvd 0 (some (1 / 50))) (fun x _ => x : ℚ → Fin 1 → ℚ) .explicit smallRows).map (fun c => List.ofFn fun t => (c.2.data t, c.2.weights t)) = some [(3, 1)] := by
  decide +kernel

example (mode : RecombMode) : ∃ (k : ℕ) (c : Data k ℤ ℚ), caraReduce 1000 (resolveNullBasis smallSvd 0 (some (1 / 50))) (fun x _ => x : ℚ → Fin 1 → ℚ) mode smallRows = some ⟨k, c⟩ ∧
    (support c).length ≤ 1 ∧ 12 / 13 ≤ ∑ t, c.weights t ∧ ∑ t, c.weights t ≤ 13 / 12 := by
  obtain ⟨k, c, h1, -, -, -, -, h2, h3, h4, -⟩ := C69_error 1000 smallSvd 0 (some (1 / 50)) (fun x _ => x : ℚ → Fin 1 → ℚ) mode smallRows (by decide +kernel) ⟨0, by decide +kernel⟩ smallSvd_isSvd (1 / 25)
    (by decide +kernel) (by norm_num) (by norm_num)
  refine ⟨k, c, h1, h2.trans (le_of_eq (by decide +kernel)), by linarith, by linarith⟩

/-- The bound on the cut-off is close to it: `(1/50) * 2.01` for `1/25`. -/
example : recombTolerance smallSvd 0 (some (1 / 50)) (caraNodes 1000 (fun x _ => x : ℚ → Fin 1 → ℚ) smallRows) ≤ 1 / 50 * (201 / 100) :=
  (C69_tolerance 1000 smallSvd 0 le_rfl (some (1 / 50)) (fun x _ => x : ℚ → Fin 1 → ℚ) smallRows (by decide +kernel) ⟨0, by decide +kernel⟩ smallSvd_isSvd (1 / 50) (201 / 100) (by norm_num)
    (by decide +kernel) (by norm_num) (1 / 50) (by simp) (fun r hr hr0 => by cases hr; norm_num at hr0) (fun r hr _ => by cases hr; rfl)).2

end Coreax
