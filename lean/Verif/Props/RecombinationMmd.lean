import Verif.Props.Cubature
import Verif.Props.KernelError
import Verif.Props.Strict
import Verif.Props.RecombinationCases
import Mathlib.LinearAlgebra.Finsupp.LinearCombination

/-!
# C101: what recombination does to discrepancies
-/

namespace Coreax

open Finset Spec

/-- `run` is the result of one of the two recombination solvers on `d`, in some mode. -/
def Spec.RecombRun {X : Type*} {n m : ℕ} [NeZero n] (big : ℝ) (null : NullResolver ℝ) (test : X → Fin m → ℝ) (d : Data n X ℝ)
    (run : Option ((k : ℕ) × Data k ℤ ℝ)) : Prop :=
  (∃ mode, run = caraReduce big null test mode d) ∨ ∃ (mode : RecombMode) (c : ℕ) (_ : NeZero c), 1 < c ∧ run = treeReduce big null test mode c d

/-- The points of a coreset of indices, with its weights. -/
def Spec.corePoints {X : Type*} {n k : ℕ} [NeZero n] (d : Data n X ℝ) (c : Data k ℤ ℝ) : Data k X ℝ := ⟨fun t => d.data (gatherIdx n (c.data t)), c.weights⟩

/-- `g` is, on the rows of `x`, a constant plus a linear combination of the test functions. -/
def Spec.InTests {X : Type*} {n m : ℕ} (test : X → Fin m → ℝ) (x : Fin n → X) (g : X → ℝ) : Prop :=
  ∃ (a : ℝ) (b : Fin m → ℝ), ∀ j, g (x j) = a + ∑ l, b l * test (x j) l

namespace RecombinationMmd

variable {X : Type*} {n m : ℕ} [NeZero n]

theorem run_spec (big : ℝ) (null : NullResolver ℝ) (hnull : ∀ n m (nodes : Fin n → Fin m → ℝ), NullBasis nodes (null n m nodes).1 (null n m nodes).2)
    (test : X → Fin m → ℝ) (d : Data n X ℝ) (hw : ∀ t, 0 ≤ d.weights t) (hpos : ∃ t, 0 < d.weights t) (run : Option ((k : ℕ) × Data k ℤ ℝ))
    (hrun : RecombRun big null test d run) :
    ∃ (k : ℕ) (c : Data k ℤ ℝ), run = some ⟨k, c⟩ ∧ 0 < k ∧ (∀ t, 0 ≤ c.weights t) ∧ ∑ t, c.weights t = 1 ∧
      (∀ l, ∑ t, c.weights t * test (d.data (gatherIdx n (c.data t))) l = (∑ t, d.weights t * test (d.data t) l) / ∑ t, d.weights t) ∧
      (supportRows c).length ≤ m + 1 := by
  have hk : ∀ {k : ℕ} (c : Data k ℤ ℝ), ∑ t, c.weights t = 1 → 0 < k := by
    intro k c h
    rcases Nat.eq_zero_or_pos k with rfl | h1
    · simp at h
    · exact h1
  rcases hrun with ⟨mode, rfl⟩ | ⟨mode, c, _, hc, rfl⟩
  · obtain ⟨k, c, h1, -, h2, -, h3, h4⟩ := C24_caratheodory big null test mode d hw hpos (hnull _ _ _)
    obtain ⟨k', c', h1', -, -, h5, -⟩ := C25_support big null test mode d hw hpos (hnull _ _ _)
    rw [h1] at h1'
    obtain ⟨rfl, h6⟩ := Sigma.mk.inj (Option.some.inj h1')
    obtain rfl := eq_of_heq h6
    exact ⟨k, c, h1, hk c h3, h2, h3, h4, h5⟩
  · obtain ⟨k, o, h1, h2, h3, h4, -, h5, -⟩ := C27_tree big null hnull test mode c hc d hw hpos
    exact ⟨k, o, h1, hk o h3, h2, h3, h4, h5.trans (min_le_right _ _)⟩

theorem avg_inTests {test : X → Fin m → ℝ} {d : Data n X ℝ} (hW : ∑ t, d.weights t ≠ 0) {k : ℕ} {c : Data k ℤ ℝ} (h1 : ∑ t, c.weights t = 1)
    (hmean : ∀ l, ∑ t, c.weights t * test (d.data (gatherIdx n (c.data t))) l = (∑ t, d.weights t * test (d.data t) l) / ∑ t, d.weights t)
    {g : X → ℝ} (hg : InTests test d.data g) : avg c.weights (fun t => g (d.data (gatherIdx n (c.data t)))) = avg d.weights fun j => g (d.data j) := by
  obtain ⟨a, b, hb⟩ := hg
  unfold avg
  simp only [hb, h1, div_one, mul_add, mul_sum, sum_add_distrib, ← sum_mul, one_mul]
  rw [add_div, mul_div_cancel_left₀ _ hW, sum_comm, sum_comm (s := univ (α := Fin n)), sum_div]
  congr 1
  refine sum_congr rfl fun l _ => ?_
  have e : ∀ {r : ℕ} (w f : Fin r → ℝ), ∑ i, w i * (b l * f i) = b l * ∑ i, w i * f i := fun w f => by
    rw [mul_sum]
    exact sum_congr rfl fun _ _ => by ring
  rw [e, e, hmean l, mul_div_assoc]

theorem avg_swap {r s : ℕ} (w : Fin r → ℝ) (v : Fin s → ℝ) (F : Fin r → Fin s → ℝ) :
    (avg w fun i => avg v fun j => F i j) = avg v fun j => avg w fun i => F i j := by
  unfold avg
  simp only [mul_div_assoc', ← sum_div, mul_sum]
  rw [sum_comm, div_div, div_div, mul_comm (∑ i, v i)]
  congr 1
  exact sum_congr rfl fun j _ => sum_congr rfl fun i _ => by ring

/-- All three averages of a kernel with sections among the test functions agree. -/
theorem averages {test : X → Fin m → ℝ} {d : Data n X ℝ} (hW : ∑ t, d.weights t ≠ 0) {k : ℕ} {c : Data k ℤ ℝ} (h1 : ∑ t, c.weights t = 1)
    (hmean : ∀ l, ∑ t, c.weights t * test (d.data (gatherIdx n (c.data t))) l = (∑ t, d.weights t * test (d.data t) l) / ∑ t, d.weights t)
    {kern : X → X → ℝ} (hsym : ∀ i j, kern (d.data i) (d.data j) = kern (d.data j) (d.data i)) (hsec : ∀ i, InTests test d.data (kern (d.data i))) :
    (avg d.weights fun i => avg c.weights fun t => kern (d.data i) (d.data (gatherIdx n (c.data t)))) = (avg d.weights fun i => avg d.weights fun j => kern (d.data i) (d.data j)) ∧
    (avg c.weights fun s => avg c.weights fun t => kern (d.data (gatherIdx n (c.data s))) (d.data (gatherIdx n (c.data t))))
      = avg d.weights fun i => avg d.weights fun j => kern (d.data i) (d.data j) := by
  have e : ∀ i, (avg c.weights fun t => kern (d.data i) (d.data (gatherIdx n (c.data t)))) = avg d.weights fun j => kern (d.data i) (d.data j) :=
    fun i => avg_inTests hW h1 hmean (hsec i)
  have e1 : (avg d.weights fun i => avg c.weights fun t => kern (d.data i) (d.data (gatherIdx n (c.data t)))) = avg d.weights fun i => avg d.weights fun j => kern (d.data i) (d.data j) := by
    simp only [e]
  refine ⟨e1, ?_⟩
  simp only [e]
  rw [avg_swap, ← e1]
  congr 1
  funext i
  congr 1
  funext t
  rw [hsym]

theorem mmdSq_zero {test : X → Fin m → ℝ} {d : Data n X ℝ} (hW : ∑ t, d.weights t ≠ 0) {k : ℕ} {c : Data k ℤ ℝ} (h1 : ∑ t, c.weights t = 1)
    (hmean : ∀ l, ∑ t, c.weights t * test (d.data (gatherIdx n (c.data t))) l = (∑ t, d.weights t * test (d.data t) l) / ∑ t, d.weights t)
    {kern : X → X → ℝ} (hsym : ∀ i j, kern (d.data i) (d.data j) = kern (d.data j) (d.data i)) (hsec : ∀ i, InTests test d.data (kern (d.data i))) :
    mmdSq kern d.data d.weights (corePoints d c).data (corePoints d c).weights = 0 := by
  obtain ⟨e1, e2⟩ := averages hW h1 hmean hsym hsec
  simp only [mmdSq, corePoints]
  rw [e1, e2]
  ring

theorem sum_pos {d : Data n X ℝ} (hw : ∀ t, 0 ≤ d.weights t) (hpos : ∃ t, 0 < d.weights t) : 0 < ∑ t, d.weights t := by
  obtain ⟨t, ht⟩ := hpos
  exact Finset.sum_pos' (fun i _ => hw i) ⟨t, mem_univ t, ht⟩

theorem inTests_monomials {p : ℕ} {e : ℕ} (powers : List (Fin p → ℕ)) (hmem : ∀ q, q ∈ powers ↔ ∑ j, q j ≤ e) (test : (Fin p → ℝ) → Fin powers.length → ℝ)
    (hval : ∀ x l, test x l = ∏ j, x j ^ powers.get l j) (x : Fin n → Fin p → ℝ) (q : MvPolynomial (Fin p) ℝ) (hq : q.totalDegree ≤ e) :
    InTests test x fun y => MvPolynomial.eval y q := by
  have h : (fun j => MvPolynomial.eval (x j) q) ∈ Submodule.span ℝ (Set.range fun (l : Fin powers.length) (j : Fin n) => test (x j) l) := by
    have e1 : (fun j => MvPolynomial.eval (x j) q) = ∑ s ∈ q.support, q.coeff s • fun j => ∏ i, x j i ^ s i := by
      funext j
      rw [MvPolynomial.eval_eq', Finset.sum_apply]
      rfl
    rw [e1]
    refine Submodule.sum_mem _ fun s hs => Submodule.smul_mem _ _ (Submodule.subset_span ?_)
    have hdeg := MvPolynomial.le_totalDegree hs
    rw [Finsupp.sum_fintype _ _ (fun _ => rfl)] at hdeg
    obtain ⟨l, hl⟩ := List.get_of_mem ((hmem fun j => s j).2 (hdeg.trans hq))
    exact ⟨l, funext fun j => by simp only [hval, hl]⟩
  obtain ⟨b, hb⟩ := Submodule.mem_span_range_iff_exists_fun ℝ |>.1 h
  refine ⟨0, b, fun j => ?_⟩
  have := congrFun hb j
  rw [Finset.sum_apply] at this
  simpa using this.symm

theorem ncard_le_support {d : Data n X ℝ} (hw : ∀ t, 0 ≤ d.weights t) (hW : 0 < ∑ t, d.weights t) {k : ℕ} (c : Data k ℤ ℝ)
    (hmass : ∀ a, massAt d.data d.weights a / ∑ t, d.weights t = massAt (corePoints d c).data (corePoints d c).weights a) :
    (d.data '' {i | 0 < d.weights i}).ncard ≤ (supportRows c).length := by
  classical
  have hsub : d.data '' {i | 0 < d.weights i} ⊆ ((((supportRows c).map fun z => d.data (gatherIdx n z)).toFinset : Finset X) : Set X) := by
    rintro a ⟨i, hi, rfl⟩
    have hp : 0 < massAt d.data d.weights (d.data i) := by
      unfold massAt
      refine Finset.sum_pos' (fun j _ => ?_) ⟨i, mem_univ i, ?_⟩
      · split_ifs
        exacts [hw j, le_rfl]
      · rw [if_pos rfl]
        exact hi
    have hq : massAt (corePoints d c).data (corePoints d c).weights (d.data i) ≠ 0 := by
      rw [← hmass]
      exact (div_pos hp hW).ne'
    unfold massAt at hq
    obtain ⟨t, -, ht⟩ := Finset.exists_ne_zero_of_sum_ne_zero hq
    have hta : (corePoints d c).data t = d.data i := by
      by_contra hne
      rw [if_neg hne] at ht
      exact ht rfl
    rw [if_pos hta] at ht
    rw [Finset.mem_coe, List.mem_toFinset, List.mem_map]
    refine ⟨c.data t, ?_, hta⟩
    rw [supportRows, List.mem_map]
    exact ⟨(c.data t, c.weights t), List.mem_filter.2 ⟨List.mem_ofFn.2 ⟨t, rfl⟩, decide_eq_true (ht : c.weights t ≠ 0)⟩, rfl⟩
  have h6 := Set.ncard_le_ncard hsub (Finset.finite_toSet _)
  rw [Set.ncard_coe_finset] at h6
  refine h6.trans ((List.toFinset_card_le _).trans ?_)
  rw [List.length_map]

end RecombinationMmd

open RecombinationMmd

variable {X : Type*} [Zero X] {n m : ℕ} [NeZero n]

/-- C101: a kernel that is within `η`, on the rows, of a symmetric kernel whose sections are combinations of the test functions. Both solvers, in all modes,
give a coreset of at most one more point than there are test functions, whose maximum mean discrepancy to the data is at most `2 √η`. -/
theorem C101_mmd (big : ℝ) (null : NullResolver ℝ) (hnull : ∀ n m (nodes : Fin n → Fin m → ℝ), NullBasis nodes (null n m nodes).1 (null n m nodes).2)
    (test : X → Fin m → ℝ) (d : Data n X ℝ) (hw : ∀ t, 0 ≤ d.weights t) (hpos : ∃ t, 0 < d.weights t) (run : Option ((k : ℕ) × Data k ℤ ℝ))
    (hrun : RecombRun big null test d run) (kern kern' : X → X → ℝ) (hsym : ∀ i j, kern' (d.data i) (d.data j) = kern' (d.data j) (d.data i))
    (hsec : ∀ i, InTests test d.data (kern' (d.data i))) {η : ℝ} (hη : ∀ i j, |kern (d.data i) (d.data j) - kern' (d.data i) (d.data j)| ≤ η)
    (big' : ℝ) (bs : PyTree (Option ℤ)) (hbs : ValidBlock bs) :
    ∃ (k : ℕ) (c : Data k ℤ ℝ) (r : ℝ), run = some ⟨k, c⟩ ∧ (supportRows c).length ≤ m + 1 ∧ mmdCompute big' kern d (corePoints d c) bs = .ok r ∧
      r ≤ 2 * Real.sqrt η ∧ r ^ 2 ≤ 4 * η := by
  obtain ⟨k, c, h1, hk, h2, h3, h4, h5⟩ := run_spec big null hnull test d hw hpos run hrun
  have hW := RecombinationMmd.sum_pos hw hpos
  have hV : 0 < ∑ t, (corePoints d c).weights t := by
    have : ∑ t, (corePoints d c).weights t = 1 := h3
    rw [this]
    exact one_pos
  have hn : 0 < n := Nat.pos_of_ne_zero (NeZero.ne n)
  obtain ⟨r, r', e1, e2, e3, e4⟩ := C100_mmd big' kern kern' hn hk d (corePoints d c) hw hW h2 hV
    (fun i j _ _ => hη i j) (fun i j _ _ => hη i _) (fun i j _ _ => hη _ _) bs bs hbs hbs
  have h0 : r' = 0 := by
    rw [C07_compute big' kern' hn hk d (corePoints d c) hW.ne' hV.ne' bs hbs, mmdSq_zero hW.ne' h3 h4 hsym hsec, max_self, Real.sqrt_zero] at e2
    exact (Except.ok.inj e2).symm
  rw [h0] at e3 e4
  refine ⟨k, c, r, h1, h5, e1, ?_, ?_⟩
  · have := (abs_le.1 e3).2
    linarith
  · have := (abs_le.1 e4).2
    linarith

/-- C101: if the sections of the kernel themselves are combinations of the test functions, the discrepancy is exactly zero. -/
theorem C101_zero (big : ℝ) (null : NullResolver ℝ) (hnull : ∀ n m (nodes : Fin n → Fin m → ℝ), NullBasis nodes (null n m nodes).1 (null n m nodes).2)
    (test : X → Fin m → ℝ) (d : Data n X ℝ) (hw : ∀ t, 0 ≤ d.weights t) (hpos : ∃ t, 0 < d.weights t) (run : Option ((k : ℕ) × Data k ℤ ℝ))
    (hrun : RecombRun big null test d run) (kern : X → X → ℝ) (hsym : ∀ i j, kern (d.data i) (d.data j) = kern (d.data j) (d.data i))
    (hsec : ∀ i, InTests test d.data (kern (d.data i))) (big' : ℝ) (bs : PyTree (Option ℤ)) (hbs : ValidBlock bs) :
    ∃ (k : ℕ) (c : Data k ℤ ℝ), run = some ⟨k, c⟩ ∧ (supportRows c).length ≤ m + 1 ∧ mmdCompute big' kern d (corePoints d c) bs = .ok 0 := by
  obtain ⟨k, c, r, h1, h2, h3, -, h5⟩ := C101_mmd big null hnull test d hw hpos run hrun kern kern hsym hsec (η := 0) (fun i j => by simp) big' bs hbs
  have : r = 0 := by nlinarith [sq_nonneg r]
  exact ⟨k, c, h1, h2, this ▸ h3⟩

/-- C101: the same for the kernel Stein discrepancy: it stays that of the data, up to `√(2 η)`. -/
theorem C101_ksd (big : ℝ) (null : NullResolver ℝ) (hnull : ∀ n m (nodes : Fin n → Fin m → ℝ), NullBasis nodes (null n m nodes).1 (null n m nodes).2)
    (test : X → Fin m → ℝ) (d : Data n X ℝ) (hw : ∀ t, 0 ≤ d.weights t) (hpos : ∃ t, 0 < d.weights t) (run : Option ((k : ℕ) × Data k ℤ ℝ))
    (hrun : RecombRun big null test d run) (kern kern' : X → X → ℝ) (hsym : ∀ i j, kern' (d.data i) (d.data j) = kern' (d.data j) (d.data i))
    (hsec : ∀ i, InTests test d.data (kern' (d.data i))) {η : ℝ} (hη : ∀ i j, |kern (d.data i) (d.data j) - kern' (d.data i) (d.data j)| ≤ η)
    (big' : ℝ) (bs : PyTree (Option ℤ)) (hbs : ValidBlock bs) :
    ∃ (k : ℕ) (c : Data k ℤ ℝ) (r r' : ℝ), run = some ⟨k, c⟩ ∧ (supportRows c).length ≤ m + 1 ∧ ksdCompute big' kern d bs none none = .ok r ∧
      ksdCompute big' kern (corePoints d c) bs none none = .ok r' ∧ |r' - r| ≤ Real.sqrt (2 * η) := by
  obtain ⟨k, c, h1, hk, h2, h3, h4, h5⟩ := run_spec big null hnull test d hw hpos run hrun
  have hW := RecombinationMmd.sum_pos hw hpos
  have hV : 0 < ∑ t, (corePoints d c).weights t := by
    have : ∑ t, (corePoints d c).weights t = 1 := h3
    rw [this]
    exact one_pos
  have hn : 0 < n := Nat.pos_of_ne_zero (NeZero.ne n)
  refine ⟨k, c, _, _, h1, h5, C35_ksd_value big' kern hn d hW.ne' bs hbs none none, C35_ksd_value big' kern hk (corePoints d c) hV.ne' bs hbs none none, ?_⟩
  refine KernelError.sqrt_close ?_
  have e1 := KernelError.avg_avg_close d.data d.weights d.data d.weights hw hW hw hW (k := kern) (k' := kern') fun i j _ _ => hη i j
  have e2 := KernelError.avg_avg_close (corePoints d c).data (corePoints d c).weights (corePoints d c).data (corePoints d c).weights h2 hV h2 hV
    (k := kern) (k' := kern') fun i j _ _ => hη _ _
  have e3 : (avg (corePoints d c).weights fun i => avg (corePoints d c).weights fun j => kern' ((corePoints d c).data i) ((corePoints d c).data j))
      = avg d.weights fun i => avg d.weights fun j => kern' (d.data i) (d.data j) := (averages hW.ne' h3 h4 hsym hsec).2
  rw [e3] at e2
  have a1 := abs_le.1 e1
  have a2 := abs_le.1 e2
  simp only [add_zero, sub_zero]
  rw [abs_le]
  constructor <;> linarith [a1.1, a1.2, a2.1, a2.2]

/-- C101: with no test functions given (the identity), the coreset of at most one more point than there are columns has discrepancy zero for every linear kernel. -/
theorem C101_linear {p : ℕ} (big : ℝ) (null : NullResolver ℝ) (hnull : ∀ n m (nodes : Fin n → Fin m → ℝ), NullBasis nodes (null n m nodes).1 (null n m nodes).2)
    (d : Data n (Vec p) ℝ) (hw : ∀ t, 0 ≤ d.weights t) (hpos : ∃ t, 0 < d.weights t) (run : Option ((k : ℕ) × Data k ℤ ℝ))
    (hrun : RecombRun big null (fun x : Vec p => fun l => x l) d run) (big' : ℝ) (bs : PyTree (Option ℤ)) (hbs : ValidBlock bs) :
    ∃ (k : ℕ) (c : Data k ℤ ℝ), run = some ⟨k, c⟩ ∧ (supportRows c).length ≤ p + 1 ∧
      ∀ s b, mmdCompute big' (KExpr.linear s b : KExpr p).sem.compute d (corePoints d c) bs = .ok 0 := by
  obtain ⟨k, c, h1, -⟩ := run_spec big null hnull _ d hw hpos run hrun
  have key : ∀ s b, mmdCompute big' (KExpr.linear s b : KExpr p).sem.compute d (corePoints d c) bs = .ok 0 ∧ (supportRows c).length ≤ p + 1 := by
    intro s b
    obtain ⟨k', c', h1', h2, h3⟩ := C101_zero big null hnull _ d hw hpos run hrun (KExpr.linear s b : KExpr p).sem.compute
      (fun i j => by simp only [KExpr.sem, linearSem, vdot, mul_comm]) (fun i => ⟨b, fun l => s * d.data i l, fun j => by
        simp only [KExpr.sem, linearSem, vdot, mul_sum]
        rw [add_comm]
        congr 1
        exact sum_congr rfl fun l _ => by ring⟩) big' bs hbs
    rw [h1] at h1'
    obtain ⟨rfl, h6⟩ := Sigma.mk.inj (Option.some.inj h1')
    obtain rfl := eq_of_heq h6
    exact ⟨h3, h2⟩
  exact ⟨k, c, h1, (key 0 0).2, fun s b => (key s b).1⟩

/-- C101: with all monomials of degree at most `e` as test functions, the coreset of at most `(p + e choose p) + 1` points has discrepancy zero for every polynomial kernel of a degree
up to `e`. -/
theorem C101_polynomial {p e : ℕ} (big : ℝ) (null : NullResolver ℝ) (hnull : ∀ n m (nodes : Fin n → Fin m → ℝ), NullBasis nodes (null n m nodes).1 (null n m nodes).2)
    (d : Data n (Vec p) ℝ) (hw : ∀ t, 0 ≤ d.weights t) (hpos : ∃ t, 0 < d.weights t) (big' : ℝ) (bs : PyTree (Option ℤ)) (hbs : ValidBlock bs) :
    ∃ (powers : List (Fin p → ℕ)) (test : Vec p → Fin powers.length → ℝ), monomialPowers p e = .ok powers ∧ monomialTests powers = .ok test ∧
      ∀ run, RecombRun big null test d run → ∃ (k : ℕ) (c : Data k ℤ ℝ), run = some ⟨k, c⟩ ∧ (supportRows c).length ≤ (p + e).choose p + 1 ∧
        ∀ (s b : ℝ) (q : ℕ), q ≤ e → mmdCompute big' (KExpr.polynomial s b (.int q) : KExpr p).sem.compute d (corePoints d c) bs = .ok 0 := by
  obtain ⟨⟨powers, hpowers, -, hmem⟩, -⟩ := C62_powers p e
  have hcount : powers.length = (p + e).choose p := by
    obtain ⟨l, h1, h2⟩ := C62_count p e
    rw [hpowers] at h1
    rw [Except.ok.inj h1, h2]
  have h0 : (0 : Fin p → ℕ) ∈ powers := (hmem 0).2 (by simp)
  obtain ⟨test, htest, hval⟩ := (C62_test_functions (K := ℝ) powers).2 (List.ne_nil_of_mem h0)
  refine ⟨powers, test, hpowers, htest, fun run hrun => ?_⟩
  obtain ⟨k, c, h1, hk, h2, h3, h4, h5⟩ := run_spec big null hnull _ d hw hpos run hrun
  refine ⟨k, c, h1, hcount ▸ h5, fun s b q hq => ?_⟩
  obtain ⟨k', c', h1', -, h6⟩ := C101_zero big null hnull _ d hw hpos run hrun (KExpr.polynomial s b (.int q) : KExpr p).sem.compute
    (fun i j => by simp only [KExpr.sem, polynomialSem, vdot, mul_comm]) (fun i => by
      let P : MvPolynomial (Fin p) ℝ := MvPolynomial.C s * (∑ l, MvPolynomial.C (d.data i l) * MvPolynomial.X l + MvPolynomial.C b) ^ q
      have hP : P.totalDegree ≤ e := by
        refine (MvPolynomial.totalDegree_mul _ _).trans ?_
        rw [MvPolynomial.totalDegree_C, zero_add]
        refine (MvPolynomial.totalDegree_pow _ _).trans ?_
        refine le_trans (Nat.mul_le_mul_left q ?_) (by omega : q * 1 ≤ e)
        refine (MvPolynomial.totalDegree_add _ _).trans (max_le ?_ (by rw [MvPolynomial.totalDegree_C]; omega))
        refine MvPolynomial.totalDegree_finsetSum_le fun l _ => ?_
        refine (MvPolynomial.totalDegree_mul _ _).trans ?_
        rw [MvPolynomial.totalDegree_C, zero_add, MvPolynomial.totalDegree_X]
      have h := inTests_monomials powers hmem test hval d.data P hP
      have e1 : (fun y => MvPolynomial.eval y P) = (KExpr.polynomial s b (.int q) : KExpr p).sem.compute (d.data i) := by
        funext y
        simp [P, KExpr.sem, polynomialSem, vdot, PyNum.toInt]
      rwa [e1] at h) big' bs hbs
  rw [h1] at h1'
  obtain ⟨rfl, h7⟩ := Sigma.mk.inj (Option.some.inj h1')
  obtain rfl := eq_of_heq h7
  exact h6

/-- C101: no finite list of test functions does it for a kernel that tells distributions apart. If the rows of positive weight have more than `m + 1` different values, the discrepancy of
every recombined coreset with `m` test functions is positive. -/
theorem C101_strict {X : Type} [Zero X] (big : ℝ) (null : NullResolver ℝ) (hnull : ∀ n m (nodes : Fin n → Fin m → ℝ), NullBasis nodes (null n m nodes).1 (null n m nodes).2)
    (test : X → Fin m → ℝ) (d : Data n X ℝ) (hw : ∀ t, 0 ≤ d.weights t) (hpos : ∃ t, 0 < d.weights t) (run : Option ((k : ℕ) × Data k ℤ ℝ))
    (hrun : RecombRun big null test d run) (kern : X → X → ℝ) (hk : IsStrict kern) (hmany : m + 1 < (d.data '' {i | 0 < d.weights i}).ncard)
    (big' : ℝ) (bs : PyTree (Option ℤ)) (hbs : ValidBlock bs) :
    ∃ (k : ℕ) (c : Data k ℤ ℝ) (r : ℝ), run = some ⟨k, c⟩ ∧ mmdCompute big' kern d (corePoints d c) bs = .ok r ∧ 0 < r := by
  obtain ⟨k, c, h1, hk0, h2, h3, h4, h5⟩ := run_spec big null hnull test d hw hpos run hrun
  have hW := RecombinationMmd.sum_pos hw hpos
  have hV : ∑ t, (corePoints d c).weights t = 1 := h3
  have hV0 : ∑ t, (corePoints d c).weights t ≠ 0 := by rw [hV]; exact one_ne_zero
  have hn : 0 < n := Nat.pos_of_ne_zero (NeZero.ne n)
  have hval := C07_compute big' kern hn hk0 d (corePoints d c) hW.ne' hV0 bs hbs
  refine ⟨k, c, _, h1, hval, lt_of_le_of_ne (Real.sqrt_nonneg _) fun h0 => ?_⟩
  rw [← h0] at hval
  have hmass := (C87_mmd_zero_iff big' kern hk hn hk0 d (corePoints d c) hW.ne' hV0 bs hbs).1 hval
  have h6 := ncard_le_support hw hW c fun a => by
    have := hmass a
    rwa [hV, div_one] at this
  omega

/-- A resolver as the theorems need it. -/
example : ∃ null : NullResolver ℝ, ∀ n m (nodes : Fin n → Fin m → ℝ), NullBasis nodes (null n m nodes).1 (null n m nodes).2 := exists_resolver

section

variable (null : NullResolver ℝ) (hnull : ∀ n m (nodes : Fin n → Fin m → ℝ), NullBasis nodes (null n m nodes).1 (null n m nodes).2)

/-- Seven weighted numbers, the identity as test function: the kernel `1 + x y` is a hundredth away from one with its sections among the tests. -/
example (mode : RecombMode) := C101_mmd 1000 null hnull (m := 1) (fun x : ℝ => ![x]) (⟨fun i => ((i : ℕ) : ℝ), fun i => ((i : ℕ) : ℝ)⟩ : Data 7 ℝ ℝ)
  (fun t => Nat.cast_nonneg _) ⟨1, by simp⟩ _ (.inl ⟨mode, rfl⟩) (fun a b => 1 + a * b) (fun a b => 101 / 100 + a * b) (fun i j => by ring)
  (fun i => ⟨101 / 100, fun _ => ((i : ℕ) : ℝ), fun j => by simp⟩) (fun i j => KernelError.hundredth _ _) 1000 (.leaf none) (.inl rfl)

example (mode : RecombMode) := C101_zero 1000 null hnull (m := 1) (fun x : ℝ => ![x]) (⟨fun i => ((i : ℕ) : ℝ), fun i => ((i : ℕ) : ℝ)⟩ : Data 7 ℝ ℝ)
  (fun t => Nat.cast_nonneg _) ⟨1, by simp⟩ _ (.inr ⟨mode, 2, inferInstance, by norm_num, rfl⟩) (fun a b => 101 / 100 + a * b) (fun i j => by ring)
  (fun i => ⟨101 / 100, fun _ => ((i : ℕ) : ℝ), fun j => by simp⟩) 1000 (.leaf none) (.inl rfl)

example (mode : RecombMode) := C101_ksd 1000 null hnull (m := 1) (fun x : ℝ => ![x]) (⟨fun i => ((i : ℕ) : ℝ), fun i => ((i : ℕ) : ℝ)⟩ : Data 7 ℝ ℝ)
  (fun t => Nat.cast_nonneg _) ⟨1, by simp⟩ _ (.inl ⟨mode, rfl⟩) (fun a b => 1 + a * b) (fun a b => 101 / 100 + a * b) (fun i j => by ring)
  (fun i => ⟨101 / 100, fun _ => ((i : ℕ) : ℝ), fun j => by simp⟩) (fun i j => KernelError.hundredth _ _) 1000 (.leaf none) (.inl rfl)

example (mode : RecombMode) := C101_linear 1000 null hnull (⟨fun i l => ((i : ℕ) : ℝ) ^ (l : ℕ), fun i => ((i : ℕ) : ℝ)⟩ : Data 7 (Vec 3) ℝ)
  (fun t => Nat.cast_nonneg _) ⟨1, by simp⟩ _ (.inr ⟨mode, 2, inferInstance, by norm_num, rfl⟩) 1000 (.leaf none) (.inl rfl)

/-- Degree two in three columns: at most eleven of a hundred rows. -/
example := C101_polynomial (e := 2) 1000 null hnull (⟨fun i l => ((i : ℕ) : ℝ) ^ (l : ℕ), fun i => ((i : ℕ) : ℝ)⟩ : Data 100 (Vec 3) ℝ)
  (fun t => Nat.cast_nonneg _) ⟨1, by simp⟩ 1000 (.leaf none) (.inl rfl)

/-- The squared exponential kernel sees the difference between seven numbers and the two that keep their mean. -/
example (mode : RecombMode) := C101_strict 1000 null hnull (m := 1) (fun x : Vec 1 => x) (⟨fun i _ => ((i : ℕ) : ℝ), fun _ => 1⟩ : Data 7 (Vec 1) ℝ)
  (fun t => zero_le_one) ⟨1, by simp⟩ _ (.inl ⟨mode, rfl⟩) _
  (C87_strict (.squaredExponential 1 1 : KExpr 1) (by norm_num [KExpr.check, checkPos, bind, Except.bind]) trivial trivial)
  (by
    have hinj : Function.Injective fun (i : Fin 7) (_ : Fin 1) => ((i : ℕ) : ℝ) := fun a b h => Fin.ext (Nat.cast_injective (congrFun h 0))
    have e : {i : Fin 7 | (0 : ℝ) < 1} = Set.univ := by simp
    show 1 + 1 < ((fun (i : Fin 7) (_ : Fin 1) => ((i : ℕ) : ℝ)) '' {i : Fin 7 | (0 : ℝ) < 1}).ncard
    rw [e, Set.ncard_image_of_injective _ hinj, Set.ncard_univ, Nat.card_eq_fintype_card, Fintype.card_fin]
    norm_num) 1000 (.leaf none) (.inl rfl)

end

end Coreax
