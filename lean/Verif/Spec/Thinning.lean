import Verif.Spec.Greedy

/-!
# Specification of kernel halving (Dwivedi and Mackey, kernel thinning, algorithm 1a)

Pairs of consecutive points are split between two halves.
-/

namespace Coreax.Spec

variable {h : ℕ}

/-- The member of the pair `{2 i, 2 i + 1}`: the second one iff `e`. -/
def pairAt (i : Fin h) (e : Bool) : Fin (2 * h) := ⟨2 * i + (if e then 1 else 0), by have := i.2; split <;> omega⟩

/-- All points are the members of the pairs. -/
def pairEquiv : Fin h × Bool ≃ Fin (2 * h) where
  toFun p := pairAt p.1 p.2
  invFun s := (⟨(s : ℕ) / 2, by have := s.2; omega⟩, decide ((s : ℕ) % 2 = 1))
  left_inv := by
    rintro ⟨i, e⟩
    cases e
    · refine Prod.ext (Fin.ext ?_) ?_ <;> simp [pairAt]
    · refine Prod.ext (Fin.ext ?_) ?_ <;> simp [pairAt] <;> omega
  right_inv := by
    intro s
    apply Fin.ext
    simp only [pairAt, decide_eq_true_eq]
    split <;> omega

variable {X K : Type*}

/-- The signed sum over the pairs before `i` when `e` says which pairs were swapped: the second half counts positively, the
first half negatively, tested against the difference of the points of the pair `i`. -/
def imbalance [Field K] (k : X → X → K) (x : Fin (2 * h) → X) (e : Fin h → Bool) (i : Fin h) : K :=
  let g := fun s : Fin (2 * h) => k (x s) (x (pairAt i false)) - k (x s) (x (pairAt i true))
  ∑ t ∈ Finset.univ.filter (fun t : Fin h => t < i), (g (pairAt t (!e t)) - g (pairAt t (e t)))

end Coreax.Spec
