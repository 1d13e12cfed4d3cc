import Verif.Props.HerdingLaws

/-!
# C11-C14: concrete cases and counterexamples for kernel herding
-/

namespace Coreax

open Greedy Spec

/-- The indices of a result. -/
def resultIdx {s : ℕ} {K : Type*} : Except Err (Data s ℤ K × List K) → Option (List ℤ)
  | .ok r => some (List.ofFn r.1.data)
  | .error _ => none

/-- A rational radial kernel (inverse quadratic). -/
def invQuad (a b : ℚ) : ℚ := 1 / (1 + (a - b) ^ 2)

theorem invQuad_symm (a b : ℚ) : invQuad a b = invQuad b a := by unfold invQuad; ring_nf

/-- A non-trivial run: five weighted points one of which has weight zero, blocks of size two, three points chosen. -/
example : resultIdx (herdingReduce (n := 5) 1000 invQuad none true (.leaf (some 2)) 3
    ⟨![0, 1, 3, 7, 2], ![1, 2, 1, 0, 1]⟩ none [0, 1, 2]) = some [1, 2, 0] := by decide +kernel

/-- The hypotheses of the herding theorems are met by that run. -/
example : ValidBlock (.leaf (some 2)) ∧ PosCount (![1, 2, 1, 0, 1] : Fin 5 → ℚ) 3 ∧
    ∑ j, (![1, 2, 1, 0, 1] : Fin 5 → ℚ) j ≠ 0 ∧ (∀ t : Fin (3 + (3 - 3)), t ∈ ([0, 1, 2] : List (Fin (3 + (3 - 3))))) ∧
    (∀ i j : Fin 5, invQuad (![0, 1, 3, 7, 2] i) (![0, 1, 3, 7, 2] i) = invQuad (![0, 1, 3, 7, 2] j) (![0, 1, 3, 7, 2] j)) := by
  refine ⟨Or.inl rfl, by unfold PosCount; decide +kernel, by decide +kernel, by decide +kernel, by decide +kernel⟩

/-- A refinement that changes the coreset, whose hypotheses (`InRange`, `UniformWeights`, `NoConflict`) hold. -/
example : resultIdx (herdingRefine (n := 4) (m := 2) 1000 invQuad none true (.leaf none) 2
    ⟨![0, 1, 2, 5], fun _ => 1⟩ ⟨![0, 1], fun _ => 1⟩ none [0, 1]) = some [3, 1] ∧
    InRange (K := ℚ) 4 (⟨![0, 1], fun _ => 1⟩ : Data 2 ℤ ℚ) ∧ UniformWeights (fun _ : Fin 2 => (1 : ℚ)) ∧
    NoConflict (⟨![0, 1], fun _ => 1⟩ : Data 2 ℤ ℚ) 4 2 :=
  ⟨by decide +kernel, by unfold InRange; decide +kernel, ⟨1, by norm_num, fun _ => Or.inr rfl⟩,
    by unfold NoConflict; decide +kernel⟩

/-- The draw contract of probabilistic herding is satisfiable: drawing the first numeric residual obeys it. -/
example : DrawContract (K := ℚ) (n := 3) (some (fun _ r => nanargmax r)) (fun _ => 1) := by
  intro d hd
  injection hd with hd
  subst hd
  refine ⟨fun _ => by norm_num, fun i r _ hp hf => ?_⟩
  obtain ⟨j, v, h1, h2, -⟩ := nanargmax_spec r hp hf
  exact ⟨j, v, h1, h2⟩

/-- With fewer positively weighted points than requested the guarantee fails: the same point is returned twice although
`unique=True`. -/
theorem C11_duplicates_when_too_few :
    resultIdx (herdingReduce (n := 3) 1000 invQuad none true (.leaf none) 2
      ⟨![0, 1, 3], ![1, 0, 0]⟩ none [0, 1]) = some [0, 0] := by decide +kernel

/-- Likewise a point of weight zero is returned. -/
theorem C11_zero_weight_when_too_few :
    resultIdx (herdingReduce (n := 2) 1000 invQuad none true (.leaf none) 2
      ⟨![0, 1], ![0, 1]⟩ none [0, 1]) = some [1, 0] := by decide +kernel

/-- `refine` does not check the size: with `coreset_size` above the number of rows it silently returns a "coreset" with
more points than the data, with repeats although `unique=True`. -/
theorem C11_refine_oversized :
    resultIdx (herdingRefine (n := 1) (m := 1) 1000 invQuad none true (.leaf none) 2
      ⟨![0], ![1]⟩ ⟨![0], ![1]⟩ none [0, 1]) = some [0, 0] := by decide +kernel

/-- For non-uniform coreset weights `refine` does not follow the herding recursion: the same members with different
positive weights give different results, although the recursion only depends on which members there are. -/
theorem C12_refine_weighted_differs :
    resultIdx (herdingRefine (n := 4) (m := 2) 1000 invQuad none true (.leaf none) 2
      ⟨![0, 1, 2, 5], fun _ => 1⟩ ⟨![1, 3], ![1, 1]⟩ none [0, 1]) = some [1, 3] ∧
    resultIdx (herdingRefine (n := 4) (m := 2) 1000 invQuad none true (.leaf none) 2
      ⟨![0, 1, 2, 5], fun _ => 1⟩ ⟨![1, 3], ![1, 3]⟩ none [0, 1]) = some [1, 0] := by
  constructor <;> decide +kernel

/-- When a coreset that contains index 0 is extended, the zero padding conflicts with the member in the temporary mask
and the result depends on the order of the scatter, which JAX leaves unspecified. -/
theorem C14_refine_scatter_order_matters :
    resultIdx (herdingRefine (n := 3) (m := 2) 1000 (fun a b : ℚ => a * b) none true (.leaf none) 3
      ⟨![10, 1, 8], fun _ => 1⟩ ⟨![1, 0], fun _ => 1⟩ none [0, 1, 2]) ≠
    resultIdx (herdingRefine (n := 3) (m := 2) 1000 (fun a b : ℚ => a * b) none true (.leaf none) 3
      ⟨![10, 1, 8], fun _ => 1⟩ ⟨![1, 0], fun _ => 1⟩ none [2, 1, 0]) := by decide +kernel

end Coreax
