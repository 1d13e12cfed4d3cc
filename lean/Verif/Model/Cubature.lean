import Verif.Model.Recombination
import Mathlib.Data.Fin.VecNotation
import Mathlib.Data.Real.Basic
import Mathlib.Data.List.GetD

/-!
# Model of `examples/cubature_recombination.py`

Numbers are elements of an ordered field (the conversions to 32-bit numbers are left out). The one-dimensional rule of
`np.polynomial.legendre.leggauss` is a parameter.
-/

namespace Coreax

/-- `itertools.product(l, repeat=n)`: the last entry changes fastest; `/repo/examples/cubature_recombination.py:53, 57, 80`. -/
def pyProduct {α : Type*} (l : List α) : (n : ℕ) → List (Fin n → α)
  | 0 => [Fin.elim0]
  | n + 1 => l.flatMap fun a => (pyProduct l n).map fun v => Matrix.vecCons a v

/-- `leggauss_product_cubature`: nodes and weights, row by row. `leggauss` raises `ValueError` if `degree` is not positive;
`/repo/examples/cubature_recombination.py:42-60`. -/
def productCubature {K : Type*} [CommMonoid K] (leggauss : ℕ → List K × List K) (dimension degree : ℕ) : Except Err (List ((Fin dimension → K) × K)) :=
  if degree = 0 then .error .valueError
  else
    let (nodes, weights) := leggauss degree
    .ok ((pyProduct nodes dimension).zip ((pyProduct weights dimension).map fun v => ∏ j, v j))

/-- `monomial_power_generator` for a non-negative `max_degree`; `/repo/examples/cubature_recombination.py:63-99`. -/
def monomialPowers (dimension maxDegree : ℕ) (mode : String := "all") : Except Err (List (Fin dimension → ℕ)) :=
  let exact := (pyProduct (List.range (maxDegree + 1)) dimension).filter fun x => !decide (∑ j, x j > maxDegree)
  if mode = "all" then .ok exact
  else if mode = "even" then .ok (exact.filter fun x => !decide (∑ j, x j = 0 ∨ (∑ j, x j) % 2 ≠ 0))
  else if mode = "odd" then .ok (exact.filter fun x => !decide ((∑ j, x j) % 2 = 0))
  else .error .valueError

/-- `polyval_coefficients` of one row of powers: entry `[i, j]`. Powers are non-negative; `/repo/examples/cubature_recombination.py:118-129`. -/
def polyvalCoefficients {K : Type*} [Zero K] [One K] {n : ℕ} (maximumDegree : ℕ) (power : Fin n → ℕ) : ℕ → Fin n → K :=
  fun i j => if i = maximumDegree - power j then 1 else 0

/-- `monomial_test_function` for one coefficient array: `jnp.polyval` is Horner's scheme over the rows, for each column;
`/repo/examples/cubature_recombination.py:131-144`. -/
def monomialValue {K : Type*} [CommRing K] {n : ℕ} (maximumDegree : ℕ) (coefficients : ℕ → Fin n → K) (x : Fin n → K) : K :=
  ∏ j, forLoop (maximumDegree + 1) (fun i y => y * x j + coefficients i j) 0

/-- `test_functions_from_monomial_powers`: `jnp.max` raises `ValueError` if there are no powers; `/repo/examples/cubature_recombination.py:102-146`. -/
def monomialTests {K : Type*} [CommRing K] {n : ℕ} (powers : List (Fin n → ℕ)) : Except Err ((Fin n → K) → Fin powers.length → K) :=
  match powers with
  | [] => .error .valueError
  | p :: rest =>
    let maximumDegree := (rest.map fun q => ∑ j, q j).foldl max (∑ j, p j)
    .ok fun x l => monomialValue maximumDegree (polyvalCoefficients maximumDegree ((p :: rest).get l)) x

/-- `jnp.average(…, axis=0, weights=…)` of the values of a test function on weighted points; `/repo/examples/cubature_recombination.py:214-219`. -/
def cubatureAverage {K X : Type*} [Field K] {N : ℕ} (f : X → K) (d : Data N X K) : K :=
  (∑ t, f (d.data t) * d.weights t) / ∑ t, d.weights t

/-- `jnp.isclose(a, b, rtol=1e-5, atol=1e-6)`; `/repo/examples/cubature_recombination.py:225-227`. -/
def isCloseDefault {K : Type*} [Field K] [LinearOrder K] (a b : K) : Bool := decide (|a - b| ≤ 1 / 10 ^ 6 + 1 / 10 ^ 5 * |b|)

/-- The weighted rows as a data set; `/repo/examples/cubature_recombination.py:188`. -/
def rowsData {K X : Type*} (rows : List (X × K)) : Data rows.length X K := ⟨fun t => (rows.get t).1, fun t => (rows.get t).2⟩

/-- `main`: the recombined cubature and whether all integrals are within tolerance (otherwise `RuntimeError` is raised). `TreeRecombination` has
the default reduction factor 2; `null` computes null spaces (`none`: its loop does not end). `/repo/examples/cubature_recombination.py:149-232`. -/
def cubatureMain {K : Type*} [Field K] [LinearOrder K] (big : K) (null : NullResolver K) (leggauss : ℕ → List K × List K) (dimension maxDegree : ℕ) :
    Except Err (Option (((k : ℕ) × Data k (Fin dimension → K) K) × Bool)) :=
  match productCubature leggauss dimension maxDegree with
  | .error e => .error e
  | .ok rows =>
    match monomialPowers dimension maxDegree with
    | .error e => .error e
    | .ok powers =>
      match monomialTests (K := K) powers with
      | .error e => .error e
      | .ok test =>
        if h : rows.length = 0 then .error .valueError
        else
          haveI : NeZero rows.length := ⟨h⟩
          .ok <| (treeReduce big null test .explicit 2 (rowsData rows)).map fun (o : (k : ℕ) × Data k ℤ K) =>
            let points : Data o.1 (Fin dimension → K) K := ⟨fun t => (rowsData rows).data (gatherIdx rows.length (o.2.data t)), o.2.weights⟩
            (⟨o.1, points⟩, decide (∀ l, isCloseDefault (cubatureAverage (fun x => test x l) (rowsData rows)) (cubatureAverage (fun x => test x l) points) = true))

end Coreax
