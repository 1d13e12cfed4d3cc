import Verif.Model.Coreset
import Verif.Props.Data

/-!
# C04: coresets

`/repo/coreax/coreset.py`.
-/

namespace Coreax

variable {X Y K : Type*}

/-- The length of the dataset an argument stands for; `none` when it cannot be one (mismatching pair). -/
def Spec.preLen : PreArg X Y K → Option ℕ
  | .array n _ => some n
  | .pair n _ p _ => if p = n then some n else none
  | .dataset n _ => some n

/-- The number of rows of a node argument. -/
def Spec.nodeLen {R : Type*} : NodeArg R K → ℕ
  | .array m _ => m
  | .data m _ => m

/-- The plain constructor: raw arrays are a `TypeError`; a coresubset longer than its data is a `ValueError`; everything
else succeeds and stores exactly what was given. -/
theorem C04_coresubset_init (indices : NodeArg ℤ K) (pre : PreArg X Y K) :
    (((∃ m r, indices = .array m r) ∨ (∀ n d, pre ≠ .dataset n d)) →
        Coresubset.init indices pre = .error .typeError) ∧
    (∀ m d n p, indices = .data m d → pre = .dataset n p →
      (n < m → Coresubset.init indices pre = .error .valueError) ∧
      (m ≤ n → Coresubset.init indices pre = .ok ⟨m, n, d, p⟩)) := by
  constructor
  · rintro (⟨m, r, rfl⟩ | h)
    · rfl
    · cases indices with
      | array => rfl
      | data m d =>
        cases pre with
        | array => rfl
        | pair => rfl
        | dataset n p => exact absurd rfl (h n p)
  · rintro m d n p rfl rfl
    refine ⟨fun h => ?_, fun h => ?_⟩ <;> simp only [Coresubset.init, gt_iff_lt]
    · rw [if_pos h]
    · rw [if_neg (by omega)]

/-- `build` succeeds exactly when the original data is well formed and at least as long as the coreset; the only
failure is `ValueError`; raw arrays get unit weights. -/
theorem C04_coresubset_build [One K] (indices : NodeArg ℤ K) (pre : PreArg X Y K) :
    ((∃ n, Spec.preLen pre = some n ∧ Spec.nodeLen indices ≤ n) ↔ ∃ c, Coresubset.build indices pre = .ok c) ∧
    (∀ e, Coresubset.build indices pre = .error e → e = .valueError) ∧
    (∀ c, Coresubset.build indices pre = .ok c →
      c.len = Spec.nodeLen indices ∧ Spec.preLen pre = some c.n ∧ c.len ≤ c.n ∧
      (∀ m r, indices = .array m r → ∀ j, c.indices.weights j = 1) ∧
      (∀ n x, pre = .array n x → ∀ j, c.pre.weights j = 1)) := by
  cases indices <;> cases pre <;>
    simp only [Coresubset.build, PreArg.convert, NodeArg.asData, Spec.preLen, Spec.nodeLen, Coresubset.init,
      Coresubset.len, gt_iff_lt]
  all_goals
    split_ifs
  all_goals
    try simp_all
  all_goals
    split_ifs <;> simp_all

/-- The same for pseudo-coresets. -/
theorem C04_pseudo_build [One K] (nodes : NodeArg X K) (pre : PreArg X Y K) :
    ((∃ n, Spec.preLen pre = some n ∧ Spec.nodeLen nodes ≤ n) ↔ ∃ c, PseudoCoreset.build nodes pre = .ok c) ∧
    (∀ e, PseudoCoreset.build nodes pre = .error e → e = .valueError) ∧
    (∀ c, PseudoCoreset.build nodes pre = .ok c → c.m = Spec.nodeLen nodes ∧ c.m ≤ c.n) := by
  cases nodes <;> cases pre <;>
    simp only [PseudoCoreset.build, PreArg.convert, NodeArg.asData, Spec.preLen, Spec.nodeLen,
      PseudoCoreset.init, gt_iff_lt]
  all_goals
    split_ifs
  all_goals
    try simp_all
  all_goals
    split_ifs <;> simp_all

/-- Every point of a coresubset is a row of the original data together with that row's supervision; the row is the one
at the stored index (whenever that is in range) and the weight is the one stored with the index. -/
theorem C04_points_are_rows (c : Coresubset X Y K) [NeZero c.n] (j : Fin c.m) :
    c.points.weights j = c.indices.weights j ∧
    ∃ i : Fin c.n, c.points.data j = c.pre.data i ∧
      (c.points.sup.map (· j)) = (c.pre.sup.map (· i)) ∧
      (0 ≤ c.indices.data j → c.indices.data j < c.n → (i : ℤ) = c.indices.data j) := by
  refine ⟨rfl, gatherIdx c.n (c.indices.data j), rfl, ?_, (C03_gather_rows c.n _).1⟩
  simp only [Coresubset.points, DSet.getItem, Option.map_map]
  rfl

/-- Re-solving weights changes the weights and nothing else; the new weights are the solver's answer for the original
data and the current points. -/
theorem C04_solve_weights (c : Coresubset X Y K) [NeZero c.n] (solver : WeightsSolver X Y K) :
    ∃ w : Fin c.m → K, w = solver c.pre c.points ∧
      c.solveWeights solver = ⟨c.m, c.n, ⟨c.indices.data, w⟩, c.pre⟩ ∧
      (letI : NeZero (c.solveWeights solver).n := ‹NeZero c.n›
       (c.solveWeights solver).points = ({ c.points with weights := w } : DSet c.m X Y K)) := by
  refine ⟨_, rfl, rfl, rfl⟩

/-- A metric gets the original data as reference (first argument) and the weighted points selected as comparison (second argument). -/
theorem C04_compute_metric (c : Coresubset X Y K) [NeZero c.n] (hidx : ∀ j, 0 ≤ c.indices.data j ∧ c.indices.data j < c.n) :
    ∃ i : Fin c.m → Fin c.n, (∀ j, (i j : ℤ) = c.indices.data j) ∧ ∀ {R : Type*} (metric : ∀ {n m : ℕ}, DSet n X Y K → DSet m X Y K → R),
      c.computeMetric metric = metric c.pre ⟨⟨fun j => c.pre.data (i j), c.indices.weights⟩, c.pre.sup.map fun y j => y (i j)⟩ := by
  refine ⟨fun j => gatherIdx c.n (c.indices.data j), fun j => (C03_gather_rows c.n _).1 (hidx j).1 (hidx j).2, fun metric => rfl⟩

example := C04_compute_metric (⟨2, 3, ⟨![2, 0], ![1, 1]⟩, ⟨⟨![5, 7, 9], ![1, 0, 3]⟩, none⟩⟩ : Coresubset ℚ ℚ ℚ) (by decide)

/-- Solving twice with solvers that only look at the points (not at their weights) is solving once. -/
theorem C04_solve_weights_idem (c : Coresubset X Y K) [h : NeZero c.n] (solver : WeightsSolver X Y K)
    (hs : ∀ {n m : ℕ} (p : DSet n X Y K) (q q' : DSet m X Y K), q.data = q'.data → q.sup = q'.sup →
      solver p q = solver p q') :
    (letI : NeZero (c.solveWeights solver).n := h
     (c.solveWeights solver).solveWeights solver) = c.solveWeights solver := by
  have : ∀ w : Fin c.m → K, solver c.pre ({ c.points with weights := w } : DSet c.m X Y K)
      = solver c.pre c.points := fun w => hs _ _ _ rfl rfl
  simp only [Coresubset.solveWeights]
  congr 2
  exact this _

example := C04_solve_weights_idem (⟨2, 3, ⟨![2, 0], ![1, 1]⟩, ⟨⟨![5, 7, 9], ![1, 0, 3]⟩, none⟩⟩ : Coresubset ℚ ℚ ℚ) (fun _ q j => q.data j + 1) (fun _ _ _ h _ => by simp only [h])

/-- The same for pseudo-coresets. -/
theorem C04_pseudo_solve_weights (c : PseudoCoreset X Y K) (solver : WeightsSolver X Y K) :
    (c.solveWeights solver).nodes.data = c.nodes.data ∧ (c.solveWeights solver).pre = c.pre ∧
      (c.solveWeights solver).nodes.weights = solver c.pre ⟨c.nodes, none⟩ :=
  ⟨rfl, rfl, rfl⟩

/-- A coresubset of two points of a three-point dataset; and one that is too long. -/
example : (Coresubset.build (X := ℕ) (Y := ℕ) (K := ℚ) (.array 2 ![2, 0]) (.array 3 ![10, 20, 30])).map
    (fun c => c.len) = .ok 2 := by decide +kernel
example : (Coresubset.build (X := ℕ) (Y := ℕ) (K := ℚ) (.array 4 ![2, 0, 1, 1]) (.array 3 ![10, 20, 30])).map
    (fun c => c.len) = .error .valueError := by decide +kernel

end Coreax
