import Verif.Model.Cubature
import Verif.Props.TreeRecombination
import Mathlib.Algebra.MvPolynomial.Degrees
import Mathlib.Algebra.MvPolynomial.Eval
import Mathlib.Data.Nat.Choose.Sum
import Mathlib.LinearAlgebra.Dimension.Constructions
import Mathlib.MeasureTheory.Integral.Pi
import Mathlib.Analysis.SpecialFunctions.Integrals.Basic
import Mathlib.Tactic.Linarith
import Mathlib.Tactic.NormNum

/-!
# C62: the cubature example

The powers and test functions of `examples/cubature_recombination.py`, the product formula and the recombined formula.
-/

namespace Coreax

open Spec

/-! ### `itertools.product` -/

section product

variable {α β : Type*}

theorem mem_pyProduct (l : List α) : ∀ (n : ℕ) (v : Fin n → α), v ∈ pyProduct l n ↔ ∀ j, v j ∈ l := by
  intro n
  induction n with
  | zero =>
    intro v
    simp only [pyProduct, List.mem_singleton, IsEmpty.forall_iff, iff_true]
    exact Subsingleton.elim _ _
  | succ n ih =>
    intro v
    simp only [pyProduct, List.mem_flatMap, List.mem_map]
    constructor
    · rintro ⟨a, ha, w, hw, rfl⟩ j
      refine Fin.cases ?_ (fun j => ?_) j
      · simpa using ha
      · simpa using (ih w).1 hw j
    · intro h
      refine ⟨v 0, h 0, Matrix.vecTail v, (ih _).2 fun j => h j.succ, ?_⟩
      exact Matrix.cons_head_tail v

/-- The order of rows in which `itertools.product` lists them. -/
def Spec.LexBefore {n : ℕ} (r : α → α → Prop) (v w : Fin n → α) : Prop := ∃ i, (∀ j, j < i → v j = w j) ∧ r (v i) (w i)

theorem pairwise_pyProduct (r : α → α → Prop) (l : List α) (hl : l.Pairwise r) : ∀ n, (pyProduct l n).Pairwise (LexBefore r) := by
  intro n
  induction n with
  | zero => simp [pyProduct]
  | succ n ih =>
    rw [pyProduct, List.pairwise_flatMap]
    constructor
    · intro a _
      rw [List.pairwise_map]
      refine ih.imp ?_
      rintro v w ⟨i, h1, h2⟩
      refine ⟨i.succ, fun j hj => ?_, by simpa using h2⟩
      induction j using Fin.cases with
      | zero => rfl
      | succ j => simpa using h1 j (Fin.succ_lt_succ_iff.1 hj)
    · refine hl.imp ?_
      intro a b hab x hx y hy
      obtain ⟨v, -, rfl⟩ := List.mem_map.1 hx
      obtain ⟨w, -, rfl⟩ := List.mem_map.1 hy
      exact ⟨0, fun j hj => absurd hj (Fin.not_lt_zero j), by simpa using hab⟩

theorem pyProduct_map (f : α → β) (l : List α) : ∀ n, pyProduct (l.map f) n = (pyProduct l n).map (fun v j => f (v j)) := by
  intro n
  induction n with
  | zero =>
    simp only [pyProduct, List.map_cons, List.map_nil, List.cons.injEq, and_true]
    exact Subsingleton.elim _ _
  | succ n ih =>
    simp only [pyProduct, ih, List.flatMap_map, List.map_flatMap, List.map_map]
    refine List.flatMap_congr fun a _ => List.map_congr_left fun v _ => ?_
    funext j
    refine Fin.cases ?_ (fun j => ?_) j <;> simp

theorem length_pyProduct (l : List α) : ∀ n, (pyProduct l n).length = l.length ^ n := by
  intro n
  induction n with
  | zero => simp [pyProduct]
  | succ n ih =>
    simp only [pyProduct, List.length_flatMap, List.length_map, ih, List.map_const', List.sum_replicate, smul_eq_mul, pow_succ]
    ring

theorem sum_pyProduct {K : Type*} [CommSemiring K] (l : List α) : ∀ (n : ℕ) (g : Fin n → α → K),
    ((pyProduct l n).map fun v => ∏ j, g j (v j)).sum = ∏ j, (l.map (g j)).sum := by
  intro n
  induction n with
  | zero => intro g; simp [pyProduct]
  | succ n ih =>
    intro g
    rw [Fin.prod_univ_succ, ← ih fun j => g j.succ]
    simp only [pyProduct, List.map_flatMap, List.map_map, Function.comp_def, Fin.prod_univ_succ, Matrix.cons_val_zero, Matrix.cons_val_succ]
    rw [List.flatMap, List.sum_flatten, List.map_map, ← List.sum_map_mul_right]
    refine congrArg List.sum (List.map_congr_left fun a _ => ?_)
    simp only [Function.comp]
    rw [List.sum_map_mul_left]

end product

/-! ### The powers -/

theorem mem_exactPowers (n m : ℕ) (p : Fin n → ℕ) :
    p ∈ (pyProduct (List.range (m + 1)) n).filter (fun x => !decide (∑ j, x j > m)) ↔ ∑ j, p j ≤ m := by
  rw [List.mem_filter, mem_pyProduct]
  simp only [List.mem_range, Bool.not_eq_true', decide_eq_false_iff_not, gt_iff_lt, not_lt]
  refine ⟨fun h => h.2, fun h => ⟨fun j => ?_, h⟩⟩
  have := Finset.single_le_sum (f := p) (fun i _ => Nat.zero_le _) (Finset.mem_univ j)
  omega

/-- C62: in the three modes `monomial_power_generator` lists, in lexicographic order and each once, exactly the powers of degree at most `max_degree`, those of even degree
other than zero, and those of odd degree; every other mode is a `ValueError`. -/
theorem C62_powers (n m : ℕ) :
    (∃ l, monomialPowers n m = .ok l ∧ l.Pairwise (LexBefore (· < ·)) ∧ ∀ p, p ∈ l ↔ ∑ j, p j ≤ m) ∧
      (∃ l, monomialPowers n m "even" = .ok l ∧ l.Pairwise (LexBefore (· < ·)) ∧ ∀ p, p ∈ l ↔ ∑ j, p j ≤ m ∧ ∑ j, p j ≠ 0 ∧ Even (∑ j, p j)) ∧
      (∃ l, monomialPowers n m "odd" = .ok l ∧ l.Pairwise (LexBefore (· < ·)) ∧ ∀ p, p ∈ l ↔ ∑ j, p j ≤ m ∧ Odd (∑ j, p j)) ∧
      ∀ mode, mode ≠ "all" → mode ≠ "even" → mode ≠ "odd" → monomialPowers n m mode = .error .valueError := by
  have hpair := pairwise_pyProduct (· < ·) (List.range (m + 1)) List.pairwise_lt_range n
  refine ⟨⟨_, rfl, hpair.filter _, mem_exactPowers n m⟩, ⟨_, rfl, (hpair.filter _).filter _, fun p => ?_⟩, ⟨_, rfl, (hpair.filter _).filter _, fun p => ?_⟩, ?_⟩
  · rw [List.mem_filter, mem_exactPowers]
    simp only [Bool.not_eq_true', decide_eq_false_iff_not, Nat.even_iff]
    omega
  · rw [List.mem_filter, mem_exactPowers]
    simp only [Bool.not_eq_true', decide_eq_false_iff_not, Nat.odd_iff]
    omega
  · intro mode h1 h2 h3
    simp only [monomialPowers, if_neg h1, if_neg h2, if_neg h3]

/-- C62: the constant monomial is among the even ones or the odd ones in no case (the docstring says that it is odd): the two modes together miss exactly it. -/
theorem C62_constant (n m : ℕ) (all even odd : List (Fin n → ℕ)) (ha : monomialPowers n m = .ok all) (he : monomialPowers n m "even" = .ok even)
    (ho : monomialPowers n m "odd" = .ok odd) : ∀ p ∈ all, (p ∈ even ∨ p ∈ odd) ↔ p ≠ 0 := by
  obtain ⟨⟨l1, h1, -, m1⟩, ⟨l2, h2, -, m2⟩, ⟨l3, h3, -, m3⟩, -⟩ := C62_powers n m
  obtain rfl : l1 = all := by rw [h1] at ha; exact Except.ok.inj ha
  obtain rfl : l2 = even := by rw [h2] at he; exact Except.ok.inj he
  obtain rfl : l3 = odd := by rw [h3] at ho; exact Except.ok.inj ho
  intro p hp
  have hz : ∑ j, p j = 0 ↔ p = 0 := by
    rw [Finset.sum_eq_zero_iff]
    constructor
    · intro h; funext j; exact h j (Finset.mem_univ j)
    · rintro rfl j -; rfl
  rw [m2, m3, Ne, Ne, ← hz]
  have := (m1 p).1 hp
  rcases Nat.even_or_odd (∑ j, p j) with h | h
  · constructor
    · rintro (h' | h')
      · exact h'.2.1
      · exact absurd h (Nat.not_even_iff_odd.2 h'.2)
    · intro h'; exact .inl ⟨this, h', h⟩
  · constructor
    · intro _ h'; rw [h'] at h; simp at h
    · intro _; exact .inr ⟨this, h⟩

example := C62_constant 2 2 _ _ _ (by decide +kernel : monomialPowers 2 2 = .ok [![0, 0], ![0, 1], ![0, 2], ![1, 0], ![1, 1], ![2, 0]])
  (by decide +kernel : monomialPowers 2 2 "even" = .ok [![0, 2], ![1, 1], ![2, 0]]) (by decide +kernel : monomialPowers 2 2 "odd" = .ok [![0, 1], ![1, 0]])

theorem count_powers : ∀ (n m M : ℕ), m ≤ M →
    ((pyProduct (List.range (M + 1)) n).filter fun x => !decide (∑ j, x j > m)).length = (n + m).choose n := by
  intro n
  induction n with
  | zero => intro m M _; simp [pyProduct]
  | succ n ih =>
    intro m M hm
    rw [pyProduct, List.filter_flatMap, List.length_flatMap]
    have hterm : ∀ a : ℕ, (List.filter (fun x : Fin (n + 1) → ℕ => !decide (∑ j, x j > m)) ((pyProduct (List.range (M + 1)) n).map fun v => Matrix.vecCons a v)).length
        = if a ≤ m then (n + (m - a)).choose n else 0 := by
      intro a
      rw [List.filter_map, List.length_map]
      split_ifs with ha
      · rw [← ih (m - a) M (by omega)]
        refine congrArg List.length (List.filter_congr fun v _ => ?_)
        simp only [Function.comp, Fin.sum_univ_succ, Matrix.cons_val_zero, Matrix.cons_val_succ]
        congr 1
        rw [decide_eq_decide]
        omega
      · rw [List.length_eq_zero_iff, List.filter_eq_nil_iff]
        intro v _
        simp only [Function.comp, Fin.sum_univ_succ, Matrix.cons_val_zero, Matrix.cons_val_succ]
        simp only [Bool.not_eq_true', decide_eq_false_iff_not, not_not]
        omega
    simp only [hterm]
    change ∑ a ∈ Finset.range (M + 1), (if a ≤ m then (n + (m - a)).choose n else 0) = _
    rw [← Finset.sum_filter]
    have hr : (Finset.range (M + 1)).filter (· ≤ m) = Finset.range (m + 1) := by
      ext a
      simp only [Finset.mem_filter, Finset.mem_range]
      omega
    rw [hr]
    have hrefl := Finset.sum_range_reflect (fun b => (n + b).choose n) (m + 1)
    simp only [Nat.add_sub_cancel] at hrefl
    rw [hrefl]
    clear hrefl hr hm hterm
    induction m with
    | zero => simp
    | succ m ih' => rw [Finset.sum_range_succ, ih', show n + 1 + (m + 1) = (n + (m + 1)) + 1 by ring, Nat.choose_succ_succ, show n + 1 + m = n + (m + 1) by ring, add_comm]

/-- C62: there are `(n + m choose n)` monomials of degree at most `m`. -/
theorem C62_count (n m : ℕ) : ∃ l, monomialPowers n m = .ok l ∧ l.length = (n + m).choose n :=
  ⟨_, rfl, count_powers n m m le_rfl⟩

example : monomialPowers 2 2 = .ok [![0, 0], ![0, 1], ![0, 2], ![1, 0], ![1, 1], ![2, 0]] ∧ monomialPowers 2 2 "even" = .ok [![0, 2], ![1, 1], ![2, 0]] ∧
    monomialPowers 2 2 "odd" = .ok [![0, 1], ![1, 0]] := by
  decide +kernel

/-! ### The test functions -/

theorem horner {K : Type*} [CommRing K] (x : K) (s : ℕ) : ∀ T : ℕ,
    forLoop T (fun i y => y * x + if (i : ℕ) = s then 1 else 0) 0 = if s < T then x ^ (T - 1 - s) else 0 := by
  intro T
  induction T with
  | zero => simp [forLoop]
  | succ T ih =>
    simp only [forLoop, Fin.val_castSucc, Fin.val_last]
    rw [ih]
    by_cases h1 : s < T
    · rw [if_pos h1, if_neg (by omega), if_pos (by omega), add_zero, ← pow_succ]
      congr 1
      omega
    · rw [if_neg h1, zero_mul, zero_add]
      by_cases h2 : T = s
      · rw [if_pos h2, if_pos (by omega), show T + 1 - 1 - s = 0 by omega, pow_zero]
      · rw [if_neg h2, if_neg (by omega)]

theorem foldl_max_ge (l : List ℕ) (a : ℕ) : a ≤ l.foldl max a ∧ ∀ y ∈ l, y ≤ l.foldl max a := by
  induction l generalizing a with
  | nil => simp
  | cons b l ih =>
    obtain ⟨h1, h2⟩ := ih (max a b)
    rw [List.foldl_cons]
    refine ⟨(le_max_left a b).trans h1, fun y hy => ?_⟩
    rcases List.mem_cons.1 hy with rfl | hy
    · exact (le_max_right a y).trans h1
    · exact h2 y hy

/-- C62: `test_functions_from_monomial_powers` evaluates the monomials, in the order of the powers; without powers it raises `ValueError`. -/
theorem C62_test_functions {K : Type*} [CommRing K] {n : ℕ} (powers : List (Fin n → ℕ)) :
    (powers = [] → monomialTests (K := K) powers = .error .valueError) ∧
      (powers ≠ [] → ∃ f, monomialTests (K := K) powers = .ok f ∧ ∀ x l, f x l = ∏ j, x j ^ powers.get l j) := by
  cases powers with
  | nil => exact ⟨fun _ => rfl, fun h => absurd rfl h⟩
  | cons p rest =>
    refine ⟨fun h => by simp at h, fun _ => ⟨_, rfl, fun x l => ?_⟩⟩
    have hb := foldl_max_ge (rest.map fun q => ∑ j, q j) (∑ j, p j)
    have hmem : ∀ q ∈ p :: rest, ∑ j, q j ≤ (rest.map fun q => ∑ j, q j).foldl max (∑ j, p j) := by
      intro q hq
      rcases List.mem_cons.1 hq with rfl | hq
      · exact hb.1
      · exact hb.2 _ (List.mem_map_of_mem hq)
    have hl := hmem _ (List.get_mem (p :: rest) l)
    unfold monomialValue polyvalCoefficients
    refine Finset.prod_congr rfl fun j _ => ?_
    have hj := Finset.single_le_sum (f := (p :: rest).get l) (fun i _ => Nat.zero_le _) (Finset.mem_univ j)
    rw [horner, if_pos (by omega)]
    congr 1
    omega

/-! ### The product formula -/

open MeasureTheory

/-- What is assumed of `leggauss(q)`: `q` nodes, `q` positive weights, exact for powers below `2 q` on `[-1, 1]`. -/
structure Spec.GaussRule (q : ℕ) (rule : List ℝ × List ℝ) : Prop where
  nodes_length : rule.1.length = q
  weights_length : rule.2.length = q
  pos : ∀ w ∈ rule.2, 0 < w
  exact_pow : ∀ k, k < 2 * q → ((rule.1.zip rule.2).map fun p => p.2 * p.1 ^ k).sum = ∫ x in (-1 : ℝ)..1, x ^ k

/-- The integral of a polynomial over the cube `[-1, 1]^n`. -/
noncomputable def Spec.cubeIntegral {n : ℕ} (p : MvPolynomial (Fin n) ℝ) : ℝ :=
  ∫ x in Set.Icc (fun _ : Fin n => (-1 : ℝ)) (fun _ => 1), MvPolynomial.eval x p

theorem integral_cube_prod {n : ℕ} (e : Fin n → ℕ) :
    ∫ x in Set.Icc (fun _ : Fin n => (-1 : ℝ)) (fun _ => 1), ∏ j, x j ^ e j = ∏ j, ∫ x in (-1 : ℝ)..1, x ^ e j := by
  rw [← Set.pi_univ_Icc, volume_pi, Measure.restrict_pi_pi, integral_fintype_prod_eq_prod (fun j x => x ^ e j)]
  refine Finset.prod_congr rfl fun j _ => ?_
  rw [intervalIntegral.integral_of_le (by norm_num), integral_Icc_eq_integral_Ioc]

theorem cubeIntegral_eq {n : ℕ} (p : MvPolynomial (Fin n) ℝ) :
    cubeIntegral p = ∑ d ∈ p.support, p.coeff d * ∏ j, ∫ x in (-1 : ℝ)..1, x ^ d j := by
  unfold cubeIntegral
  simp only [MvPolynomial.eval_eq']
  rw [integral_finsetSum]
  · refine Finset.sum_congr rfl fun d _ => ?_
    rw [integral_const_mul, integral_cube_prod]
  · intro d _
    refine (Continuous.continuousOn ?_).integrableOn_compact isCompact_Icc
    fun_prop

theorem cubeIntegral_one (n : ℕ) : cubeIntegral (1 : MvPolynomial (Fin n) ℝ) = 2 ^ n := by
  have h := integral_cube_prod (fun _ : Fin n => 0)
  simp only [pow_zero, Finset.prod_const_one] at h
  unfold cubeIntegral
  simp only [map_one]
  rw [h]
  norm_num

theorem productCubature_rows {q : ℕ} (hq : 1 ≤ q) {leggauss : ℕ → List ℝ × List ℝ} (h : GaussRule q (leggauss q)) (n : ℕ) :
    productCubature leggauss n q = .ok ((pyProduct ((leggauss q).1.zip (leggauss q).2) n).map fun v => (fun j => (v j).1, ∏ j, (v j).2)) := by
  unfold productCubature
  rw [if_neg (by omega)]
  simp only []
  congr 1
  have h1 : (leggauss q).1 = ((leggauss q).1.zip (leggauss q).2).map Prod.fst := by
    rw [List.map_fst_zip]
    rw [h.nodes_length, h.weights_length]
  have h2 : (leggauss q).2 = ((leggauss q).1.zip (leggauss q).2).map Prod.snd := by
    rw [List.map_snd_zip]
    rw [h.nodes_length, h.weights_length]
  conv_lhs => rw [h2]; arg 1; rw [h1]
  rw [pyProduct_map, pyProduct_map, List.map_map, List.zip_map']
  rfl

/-- C62: with a Gauss rule of `degree` nodes, `leggauss_product_cubature` has `degree^n` nodes in the cube's product grid with positive weights, and integrates every polynomial whose degree
in each variable is below `2 * degree` exactly over the cube; this is more than the degree that is documented. For `degree = 0` it raises `ValueError`. -/
theorem C62_product_formula (leggauss : ℕ → List ℝ × List ℝ) (n q : ℕ) :
    (q = 0 → productCubature leggauss n q = .error .valueError) ∧
      (1 ≤ q → GaussRule q (leggauss q) → ∃ rows, productCubature leggauss n q = .ok rows ∧ rows.length = q ^ n ∧ (∀ r ∈ rows, 0 < r.2 ∧ ∀ j, r.1 j ∈ (leggauss q).1) ∧
        ∀ p : MvPolynomial (Fin n) ℝ, (∀ j, p.degreeOf j < 2 * q) → (rows.map fun r => r.2 * MvPolynomial.eval r.1 p).sum = cubeIntegral p) := by
  constructor
  · rintro rfl
    rfl
  intro hq h
  refine ⟨_, productCubature_rows hq h n, ?_, ?_, ?_⟩
  · rw [List.length_map, length_pyProduct, List.length_zip, h.nodes_length, h.weights_length, min_self]
  · intro r hr
    obtain ⟨v, hv, rfl⟩ := List.mem_map.1 hr
    rw [mem_pyProduct] at hv
    refine ⟨?_, fun j => (List.of_mem_zip (hv j)).1⟩
    change 0 < ∏ j, (v j).2
    exact Finset.prod_pos fun j _ => h.pos _ (List.of_mem_zip (hv j)).2
  · intro p hp
    rw [cubeIntegral_eq]
    simp only [List.map_map, Function.comp_def, MvPolynomial.eval_eq', Finset.mul_sum]
    have hswap : ∀ (l : List (Fin n → ℝ × ℝ)) (F : (Fin n →₀ ℕ) → (Fin n → ℝ × ℝ) → ℝ),
        (l.map fun v => ∑ d ∈ p.support, F d v).sum = ∑ d ∈ p.support, (l.map fun v => F d v).sum := by
      intro l F
      induction l with
      | nil => simp
      | cons a l ih => simp only [List.map_cons, List.sum_cons, ih, Finset.sum_add_distrib]
    rw [hswap]
    refine Finset.sum_congr rfl fun d hd => ?_
    have hg := sum_pyProduct ((leggauss q).1.zip (leggauss q).2) n (fun j (r : ℝ × ℝ) => r.2 * r.1 ^ d j)
    have he : ∀ j, (((leggauss q).1.zip (leggauss q).2).map fun r : ℝ × ℝ => r.2 * r.1 ^ d j).sum = ∫ x in (-1 : ℝ)..1, x ^ d j := fun j =>
      h.exact_pow (d j) (lt_of_le_of_lt (MvPolynomial.monomial_le_degreeOf j hd) (hp j))
    simp only [he] at hg
    rw [← hg, ← List.sum_map_mul_left]
    refine congrArg List.sum (List.map_congr_left fun v _ => ?_)
    simp only [Finset.prod_mul_distrib]
    ring

/-! ### The recombined formula -/

theorem card_le_of_indep {N M : ℕ} (nodes : Fin N → Fin M → ℝ) (S : Finset (Fin N)) (h : IndepOn nodes (· ∈ S)) : S.card ≤ M := by
  have hli : LinearIndependent ℝ (fun i : S => nodes i) := by
    rw [Fintype.linearIndependent_iff]
    intro g hg i
    have hz := h (fun j => if hj : j ∈ S then g ⟨j, hj⟩ else 0) (fun j hj => dif_neg hj) (fun l => ?_) i
    · simpa using hz
    · have hl := congrFun hg l
      simp only [Finset.sum_apply, Pi.smul_apply, smul_eq_mul, Pi.zero_apply] at hl
      refine Eq.trans ?_ hl
      simp only []
      rw [← Finset.sum_subset (Finset.subset_univ S) (fun j _ hj => by rw [dif_neg hj, zero_mul]), ← Finset.sum_coe_sort S]
      refine Finset.sum_congr rfl fun j _ => ?_
      rw [dif_pos j.2]
  have := hli.fintype_card_le_finrank
  simpa using this

/-- Rows that are independent under the test functions with a further constant are independent without it if the constant is one of the test functions. -/
theorem indepOn_of_augment {N M : ℕ} (test : Fin N → Fin M → ℝ) (l0 : Fin M) (h0 : ∀ i, test i l0 = 1) (keep : Fin N → Prop)
    (h : IndepOn (fun i => augment (test i)) keep) : IndepOn test keep := by
  intro z hz hn
  refine h z hz fun l => ?_
  refine Fin.cases ?_ (fun l => ?_) l
  · have := hn l0
    simp only [h0] at this
    simpa [augment] using this
  · simpa [augment] using hn l

theorem sum_rows {X : Type*} (rows : List (X × ℝ)) (f : X → ℝ) :
    ∑ t, (rowsData rows).weights t * f ((rowsData rows).data t) = (rows.map fun r => r.2 * f r.1).sum := by
  rw [← List.sum_ofFn]
  congr 1
  refine (List.ofFn_getElem_eq_map rows (fun r => r.2 * f r.1))

theorem length_supportRows_le {N M : ℕ} (nodes : Fin N → Fin M → ℝ) {k : ℕ} (o : Data k ℤ ℝ) (hnd : (supportRows o).Nodup)
    (hrow : ∀ r ∈ supportRows o, ∃ i : Fin N, r = ((i : ℕ) : ℤ)) (h : IndepOn nodes (fun i : Fin N => ((i : ℕ) : ℤ) ∈ supportRows o)) :
    (supportRows o).length ≤ M := by
  have hc := card_le_of_indep nodes (Finset.univ.filter fun i : Fin N => ((i : ℕ) : ℤ) ∈ supportRows o) (by simpa using h)
  refine le_trans ?_ hc
  rw [← List.toFinset_card_of_nodup hnd]
  have himg : (supportRows o).toFinset ⊆ (Finset.univ.filter fun i : Fin N => ((i : ℕ) : ℤ) ∈ supportRows o).image (fun i : Fin N => ((i : ℕ) : ℤ)) := by
    intro r hr
    rw [List.mem_toFinset] at hr
    obtain ⟨i, rfl⟩ := hrow r hr
    exact Finset.mem_image.2 ⟨i, by simpa using hr, rfl⟩
  exact (Finset.card_le_card himg).trans Finset.card_image_le

theorem explicit_nonzero {k : ℕ} (o : Data k ℤ ℝ) (h : k = (support o).length) : ∀ t, o.weights t ≠ 0 := by
  have hl : ((List.ofFn fun t => (o.data t, o.weights t)).filter (fun p => p.2 ≠ 0)).length = (List.ofFn fun t => (o.data t, o.weights t)).length := by
    rw [List.length_ofFn]
    exact h.symm
  rw [List.length_filter_eq_length_iff] at hl
  intro t
  have := hl (o.data t, o.weights t) (List.mem_ofFn.2 ⟨t, rfl⟩)
  simpa using this

/-- C62: given the contracts of `leggauss` and of the null spaces, `main` succeeds for every dimension and every degree from one on. Its cubature has at most `(n + m choose n)` nodes (and at most
`m^n`), all of them nodes of the product grid, with positive weights of sum one, and gives the mean over the cube of every polynomial of total degree at most `m`. -/
theorem C62_recombined (big : ℝ) (null : NullResolver ℝ) (hnull : ∀ n m (nodes : Fin n → Fin m → ℝ), NullBasis nodes (null n m nodes).1 (null n m nodes).2)
    (leggauss : ℕ → List ℝ × List ℝ) (n m : ℕ) (hm : 1 ≤ m) (hg : GaussRule m (leggauss m)) :
    ∃ (k : ℕ) (points : Data k (Fin n → ℝ) ℝ), cubatureMain big null leggauss n m = .ok (some (⟨k, points⟩, true)) ∧ k ≤ (n + m).choose n ∧ k ≤ m ^ n ∧
      (∀ t, 0 < points.weights t) ∧ ∑ t, points.weights t = 1 ∧ (∀ t j, points.data t j ∈ (leggauss m).1) ∧
      ∀ p : MvPolynomial (Fin n) ℝ, p.totalDegree ≤ m → ∑ t, points.weights t * MvPolynomial.eval (points.data t) p = cubeIntegral p / 2 ^ n := by
  obtain ⟨rows, hrows, hlen, hpos, hexact⟩ := (C62_product_formula leggauss n m).2 hm hg
  obtain ⟨⟨powers, hpowers, -, hmem⟩, -⟩ := C62_powers n m
  have hcount : powers.length = (n + m).choose n := by
    obtain ⟨l, h1, h2⟩ := C62_count n m
    rw [hpowers] at h1
    rw [Except.ok.inj h1, h2]
  have h0 : (0 : Fin n → ℕ) ∈ powers := (hmem 0).2 (by simp)
  obtain ⟨test, htest, hval⟩ := (C62_test_functions (K := ℝ) powers).2 (List.ne_nil_of_mem h0)
  have hr0 : rows.length ≠ 0 := by rw [hlen]; exact pow_ne_zero _ (by omega)
  have : NeZero rows.length := ⟨hr0⟩
  have hw : ∀ t, 0 < (rowsData rows).weights t := fun t => (hpos _ (List.get_mem rows t)).1
  have hsum : ∑ t, (rowsData rows).weights t = 2 ^ n := by
    have h1 := sum_rows rows (fun _ => 1)
    have h2 := hexact 1 (fun j => by rw [MvPolynomial.degreeOf_one]; omega)
    simp only [map_one] at h2
    rw [h2, cubeIntegral_one] at h1
    simpa using h1
  obtain ⟨k, o, hred, hnn, hone, hmean, hnd, hsl, hsr, hind⟩ := C27_tree big null hnull test .explicit 2 (by norm_num) (rowsData rows) (fun t => (hw t).le)
    ⟨⟨0, Nat.pos_of_ne_zero hr0⟩, hw _⟩
  have hk : k = (supportRows o).length := by
    obtain ⟨L, hL⟩ := C26_tree big null hnull test 2 (by norm_num) (rowsData rows) (fun t => (hw t).le) ⟨⟨0, Nat.pos_of_ne_zero hr0⟩, hw _⟩
    obtain ⟨k', o', h1, h2, h3, -⟩ := hL .explicit
    rw [hred] at h1
    obtain ⟨rfl, h1⟩ := Sigma.mk.inj (Option.some.inj h1)
    obtain rfl := eq_of_heq h1
    rw [supportRows, List.length_map, h2]
    exact h3 rfl
  have hne := explicit_nonzero o (hk.trans (by rw [supportRows, List.length_map]))
  obtain ⟨l0, hl0⟩ := List.get_of_mem h0
  have hbound := length_supportRows_le (fun i => test ((rowsData rows).data i)) o hnd (fun r hr => by obtain ⟨i, hi, -⟩ := hsr r hr; exact ⟨i, hi⟩)
    (indepOn_of_augment _ l0 (fun i => by rw [hval, hl0]; simp) _ hind)
  have hpoly : ∀ p : MvPolynomial (Fin n) ℝ, p.totalDegree ≤ m →
      ∑ t, o.weights t * MvPolynomial.eval ((rowsData rows).data (gatherIdx rows.length (o.data t))) p = cubeIntegral p / 2 ^ n := by
    intro p hp
    have hdeg : ∀ d ∈ p.support, ∃ l, powers.get l = fun j => d j := by
      intro d hd
      refine List.get_of_mem ((hmem _).2 ?_)
      have := MvPolynomial.le_totalDegree hd
      rw [Finsupp.sum_fintype _ _ (fun _ => rfl)] at this
      exact this.trans hp
    have hj : ∀ j, p.degreeOf j < 2 * m := by
      intro j
      rw [MvPolynomial.degreeOf_lt_iff (by omega)]
      intro d hd
      have h1 := MvPolynomial.le_totalDegree hd
      rw [Finsupp.sum_fintype _ _ (fun _ => rfl)] at h1
      have h2 := Finset.single_le_sum (f := fun j => d j) (fun i _ => Nat.zero_le _) (Finset.mem_univ j)
      omega
    rw [← hexact p hj, ← sum_rows rows (fun x => MvPolynomial.eval x p), ← hsum]
    simp only [MvPolynomial.eval_eq', Finset.mul_sum]
    rw [Finset.sum_comm, Finset.sum_comm (s := Finset.univ), Finset.sum_div]
    refine Finset.sum_congr rfl fun d hd => ?_
    obtain ⟨l, hl⟩ := hdeg d hd
    have h1 := hmean l
    simp only [hval, hl] at h1
    simp only [mul_left_comm _ (p.coeff d), ← Finset.mul_sum]
    rw [h1, mul_div_assoc]
  refine ⟨k, ⟨fun t => (rowsData rows).data (gatherIdx rows.length (o.data t)), o.weights⟩, ?_, ?_, ?_, ?_, hone, ?_, hpoly⟩
  · simp only [cubatureMain, hrows, hpowers, htest, dif_neg hr0, hred, Option.map_some]
    congr 3
    rw [decide_eq_true_iff]
    intro l
    have hav : cubatureAverage (fun x => test x l) (rowsData rows) =
        cubatureAverage (fun x => test x l) ⟨fun t => (rowsData rows).data (gatherIdx rows.length (o.data t)), o.weights⟩ := by
      simp only [cubatureAverage, hone, div_one]
      simp only [mul_comm (test _ l)]
      exact (hmean l).symm
    rw [hav, isCloseDefault, decide_eq_true_iff, sub_self, abs_zero]
    positivity
  · rw [hk, ← hcount]
    exact hbound
  · rw [hk, ← hlen]
    exact hsl.trans (min_le_left _ _)
  · exact fun t => lt_of_le_of_ne (hnn t) (hne t).symm
  · exact fun t j => (hpos _ (List.get_mem rows _)).2 j

/-- C62: `main` raises `ValueError` for degree zero. -/
theorem C62_degree_zero (big : ℝ) (null : NullResolver ℝ) (leggauss : ℕ → List ℝ × List ℝ) (n : ℕ) : cubatureMain big null leggauss n 0 = .error .valueError := by
  simp only [cubatureMain, (C62_product_formula leggauss n 0).1 rfl]

/-- The rules with one and two nodes meet the contract. -/
example : GaussRule 1 ([0], [2]) := by
  refine ⟨rfl, rfl, by simp, fun k hk => ?_⟩
  interval_cases k <;> norm_num

example : GaussRule 2 ([-√(1 / 3), √(1 / 3)], [1, 1]) := by
  refine ⟨rfl, rfl, by simp, fun k hk => ?_⟩
  have h : √(1 / 3 : ℝ) ^ 2 = 1 / 3 := Real.sq_sqrt (by norm_num)
  interval_cases k <;> simp only [List.zip_cons_cons, List.zip_nil_right, List.map_cons, List.map_nil, List.sum_cons, List.sum_nil, integral_pow]
  · norm_num
  · norm_num
  · rw [neg_sq, h]; norm_num
  · norm_num [Odd.neg_pow (by decide : Odd 3)]

/-- The rule with two nodes in every direction, in three dimensions. -/
example (null : NullResolver ℝ) (hnull : ∀ n m (nodes : Fin n → Fin m → ℝ), NullBasis nodes (null n m nodes).1 (null n m nodes).2) :=
  C62_recombined 1000 null hnull (fun _ => ([-√(1 / 3), √(1 / 3)], [1, 1])) 3 2 (by norm_num) (by
    refine ⟨rfl, rfl, by simp, fun k hk => ?_⟩
    have h : √(1 / 3 : ℝ) ^ 2 = 1 / 3 := Real.sq_sqrt (by norm_num)
    interval_cases k <;> simp only [List.zip_cons_cons, List.zip_nil_right, List.map_cons, List.map_nil, List.sum_cons, List.sum_nil, integral_pow]
    · norm_num
    · norm_num
    · rw [neg_sq, h]; norm_num
    · norm_num [Odd.neg_pow (by decide : Odd 3)])

end Coreax
