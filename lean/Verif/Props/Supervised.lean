import Verif.Props.SteinKernel
import Verif.Model.Supervised
import Verif.Props.Random
import Verif.Props.Mean
import Verif.Props.Metrics
import Verif.Props.Herding

/-!
# C55: which solvers accept supervised data
-/

set_option linter.unusedSectionVars false

namespace Coreax

open Spec

theorem unpackTwo_sup {n : ℕ} {X Y K : Type*} (d : DSet n X Y K) (h : d.sup ≠ none) : unpackTwo d.leaves = .error .valueError := by
  obtain ⟨d, _ | y⟩ := d
  · exact absurd rfl h
  · rfl

theorem unpackTwo_none {n : ℕ} {X Y K : Type*} (d : DSet n X Y K) (h : d.sup = none) : unpackTwo d.leaves = .ok d.toData := by
  obtain ⟨d, _ | y⟩ := d
  · rfl
  · exact absurd h (by simp)

section
variable {X Y K : Type} [Zero X] [Field K] [LinearOrder K] [IsStrictOrderedRing K] {n : ℕ} [NeZero n] {m : ℕ}

/-- No supervised dataset can be reduced or refined by herding, whatever the kernel, size, state and coreset. -/
theorem C55_herding_rejects (big : K) (k : X → X → K) (prob : Option (Draw n K)) (unique : Bool) (bs : PyTree (Option ℤ)) (size : ℕ)
    (pre : DSet n X Y K) (hsup : pre.sup ≠ none) (state : Option (List K)) :
    (∀ (c : Data m ℤ K) ord, herdingRefineS big k prob unique bs size pre c state ord = .error .valueError) ∧
      ∀ ord, herdingReduceS big k prob unique bs size pre state ord = .error .valueError := by
  have h : ∀ (m : ℕ) (c : Data m ℤ K) ord, herdingRefineS big k prob unique bs size pre c state ord = .error .valueError := by
    intro m c ord
    have hn : 0 < n := Nat.pos_of_ne_zero (NeZero.ne n)
    cases state with
    | some l => simp only [herdingRefineS, cachedRowMean, unpackTwo_sup pre hsup]
    | none =>
      obtain ⟨-, h1, h2⟩ := C05_mean_errors big k pre.toData pre.toData .zero bs
      by_cases hbs : ValidBlock bs
      · obtain ⟨l, hl, -⟩ := h1 hbs hn hn
        simp only [herdingRefineS, cachedRowMean, gramianRowMean, hl, unpackTwo_sup pre hsup]
      · simp only [herdingRefineS, cachedRowMean, gramianRowMean, h2 hbs]
  refine ⟨h m, fun ord => ?_⟩
  unfold herdingReduceS initialCoresubset
  split
  · rename_i e he
    split at he
    · cases he; rfl
    · cases he
  · exact h _ _ _

/-- For unsupervised data this is the model used elsewhere. -/
theorem C55_herding_unsupervised (big : K) (k : X → X → K) (prob : Option (Draw n K)) (unique : Bool) (bs : PyTree (Option ℤ)) (size : ℕ)
    (pre : DSet n X Y K) (hsup : pre.sup = none) (state : Option (List K)) (ord : List (Fin (size + (size - size)))) :
    herdingReduceS big k prob unique bs size pre state ord = herdingReduce big k prob unique bs size pre.toData state ord := by
  unfold herdingReduceS herdingReduce herdingRefineS herdingRefine
  simp only [unpackTwo_none pre hsup]
  cases (initialCoresubset 0 size n : Except Err (Data size ℤ K)) <;> rfl

/-- Both recombination solvers reject every supervised dataset. -/
theorem C55_recombination_rejects {q : ℕ} (big : K) (null : NullResolver K) (test : X → Fin q → K) (mode : RecombMode) (c : ℕ) [NeZero c]
    (d : DSet n X Y K) (hsup : d.sup ≠ none) :
    caraReduceS big null test mode d = .error .valueError ∧ treeReduceS big null test mode c d = .error .valueError := by
  simp [caraReduceS, treeReduceS, unpackTwo_sup d hsup]

end

section
variable {Y : Type} {d n m : ℕ} [NeZero n]

/-- Stein thinning rejects every supervised dataset, and the kernel Stein discrepancy every supervised reference dataset. -/
theorem C55_stein_rejects (big : ℝ) (kernel : KExpr d) (sm : Option (Vec d → Vec d)) (unique : Bool) (o : SteinOptions n)
    (bs : PyTree (Option ℤ)) (size : ℕ) (pre : DSet n (Vec d) Y ℝ) (hsup : pre.sup ≠ none) :
    (∀ (c : Data m ℤ ℝ) ord, steinThinningRefineS big kernel sm unique o bs size pre c ord = .error .valueError) ∧
      (∀ ord, steinThinningReduceS big kernel sm unique o bs size pre ord = .error .valueError) ∧
      ∀ {q : ℕ} (y : DSet q (Vec d) Y ℝ) logp lap, ksdComputeS big kernel sm pre y bs logp lap = .error .valueError := by
  have h : ∀ (m : ℕ) (c : Data m ℤ ℝ) ord, steinThinningRefineS big kernel sm unique o bs size pre c ord = .error .valueError := by
    intro m c ord
    simp only [steinThinningRefineS, unpackTwo_sup pre hsup]
  refine ⟨h m, fun ord => ?_, fun y logp lap => ?_⟩
  · unfold steinThinningReduceS initialCoresubset
    split
    · rename_i e he
      split at he
      · cases he; rfl
      · cases he
    · exact h _ _ _
  · simp only [ksdComputeS, unpackTwo_sup pre hsup]

/-- With an unsupervised reference dataset the discrepancy is that of the converted kernel on the comparison data, whose supervision is not read, with the density
and the Laplace correction of the reference data. -/
theorem C55_ksd_value (big : ℝ) (kernel kp : KExpr d) (sm : Option (Vec d → Vec d)) (bs : PyTree (Option ℤ)) (hbs : ValidBlock bs) (pre : DSet n (Vec d) Y ℝ)
    (hsup : pre.sup = none) (hkp : convertStein big pre.data kernel sm = .ok kp) {q : ℕ} (hq : 0 < q) (y : DSet q (Vec d) Y ℝ)
    (hy : ∑ i, y.weights i ≠ 0) (logp lap : Data n (Vec d) ℝ → KExpr d → Option (Fin q → ℝ)) :
    ksdComputeS big kernel sm pre y bs logp lap = .ok (Real.sqrt (max 0
      ((avg y.weights fun i => avg y.weights fun j => kp.sem.compute (y.data i) (y.data j))
        + (match lap pre.toData kp with | none => 0 | some l => (∑ i, l i) / (q : ℝ) ^ 2)
        - (match logp pre.toData kp with | none => 0 | some l => 1 / (q : ℝ) * ((∑ i, l i) / q))))) := by
  simp only [ksdComputeS, unpackTwo_none pre hsup, hkp]
  exact C35_ksd_value big kp.sem.compute hq y.toData hy bs hbs _ _

theorem mmdCompute_ok {X : Type} [Zero X] (big : ℝ) (k : X → X → ℝ) {n m : ℕ} (hn : 0 < n) (hm : 0 < m) (x : Data n X ℝ) (y : Data m X ℝ) :
    ∃ r, mmdCompute big k x y (.leaf none) = .ok r := by
  have h : ∀ {n m : ℕ} (_ : 0 < n) (_ : 0 < m) (x : Data n X ℝ) (y : Data m X ℝ),
      ∃ r, meanScalar (computeMean big k x y .none (.node [.leaf none, .leaf none])) = .ok r := by
    intro n m hn hm x y
    obtain ⟨l, hl, hlen⟩ := (C05_mean_errors big k x y .none (.node [.leaf none, .leaf none])).2.1 (Or.inr rfl) hn hm
    obtain ⟨a, rfl⟩ := List.length_eq_one_iff.1 hlen
    exact ⟨a, by rw [hl]; rfl⟩
  obtain ⟨a, ha⟩ := h hn hn x x
  obtain ⟨b, hb⟩ := h hm hm y y
  obtain ⟨c, hc⟩ := h hn hm x y
  have ht : treeLeavesRepeat (.leaf (none : Option ℤ)) 2 = [none, none] := rfl
  simp [mmdCompute, mmdSquared, ht, ha, hb, hc, clipSqrt]

theorem collectMmd_all_ok (l : List (Except Err ℝ)) (h : ∀ e ∈ l, ∃ r, e = .ok r) : ∃ r, collectMmd l = .ok r := by
  induction l with
  | nil => exact ⟨[], rfl⟩
  | cons a l ih =>
    obtain ⟨r, rfl⟩ := h a (by simp)
    obtain ⟨s, hs⟩ := ih fun e he => h e (by simp [he])
    exact ⟨r :: s, by simp [collectMmd, hs]⟩

/-- Kernel thinning fails with a `ValueError` on every supervised dataset, whatever the draws and the number of halvings: when the size is
admissible, all halvings and comparisons are done before the refinement fails. -/
theorem C55_thinning_rejects {X : Type} [Zero X] {size : ℕ} [NeZero size] (big : ℝ) (k sk : X → X → ℝ) (c : Ext ℝ)
    (u : ℕ → ℝ) (choice : Choice n size ℝ) (ord : List (Fin (size + (size - size)))) (depth : ℕ) (dataset : DSet n X Y ℝ) (hsup : dataset.sup ≠ none) :
    ktReduceS big k sk c u choice ord depth dataset = .error .valueError := by
  have hn : 0 < n := Nat.pos_of_ne_zero (NeZero.ne n)
  have hs : 0 < size := Nat.pos_of_ne_zero (NeZero.ne size)
  unfold ktReduceS
  split_ifs
  · rfl
  · simp only
    split
    · rename_i e he
      rw [(C17_error_iff false true dataset choice hs).2 e he]
    · rename_i baseline _
      have hch : ∀ cands : List (Fin size → ℤ), ∃ best, ktChoose big k dataset.toData cands = .ok best := by
        intro cands
        obtain ⟨vals, hv⟩ := collectMmd_all_ok (cands.map fun c =>
          mmdCompute big k (⟨fun t => dataset.data (gatherIdx n (c t)), fun _ => 1⟩ : Data size X ℝ) dataset.toData (.leaf none)) (by
            intro e he
            obtain ⟨c, -, rfl⟩ := List.mem_map.1 he
            exact mmdCompute_ok big k hs hn _ _)
        exact ⟨cands.getD (argminList vals) (fun _ => 0), by simp only [ktChoose, hv]⟩
      obtain ⟨best, hb⟩ := hch (ktPartition (size := size) Real.sqrt sk c u dataset.data depth ++
        [fun t : Fin size => if h : (t : ℕ) < baseline.m then baseline.indices.data ⟨t, h⟩ else 0])
      simp only [hb, (C55_herding_rejects big k none true (.leaf none) size dataset hsup none).1, dropState]

/-- For unsupervised data the wrappers are the models used elsewhere. -/
theorem C55_unsupervised_same (big : ℝ) (kernel : KExpr d) (sm : Option (Vec d → Vec d)) (unique : Bool) (o : SteinOptions n)
    (bs : PyTree (Option ℤ)) (size : ℕ) (pre : DSet n (Vec d) Y ℝ) (hsup : pre.sup = none) :
    (∀ (c : Data m ℤ ℝ) ord, steinThinningRefineS big kernel sm unique o bs size pre c ord
      = steinThinningRefine big kernel sm unique o bs size pre.toData c ord) ∧
    (∀ {q : ℕ} (null : NullResolver ℝ) (test : Vec d → Fin q → ℝ) mode (c : ℕ) [NeZero c],
      caraReduceS big null test mode pre = .ok (caraReduce big null test mode pre.toData) ∧
      treeReduceS big null test mode c pre = .ok (treeReduce big null test mode c pre.toData)) := by
  refine ⟨fun c ord => ?_, fun null test mode c _ => ⟨?_, ?_⟩⟩ <;>
    simp only [steinThinningRefineS, caraReduceS, treeReduceS, unpackTwo_none pre hsup]

/-- Random sampling and the maximum mean discrepancy accept supervised data: the coreset keeps the supervision. -/
theorem C55_accepted {X : Type} [Zero X] {size q : ℕ} (hq : 0 < q) (big : ℝ) (k : X → X → ℝ) (weighted unique : Bool) (dataset : DSet n X Y ℝ) (other : DSet q X Y ℝ)
    (choice : Choice n size ℝ) (hc : ChoiceContract choice) (hs : size ≤ n) :
    (∃ c, randomSample weighted unique ⟨n, dataset⟩ choice = .ok ⟨size, n, c, dataset⟩) ∧
      ∃ r, mmdCompute big k dataset.toData other.toData (.leaf none) = .ok r := by
  have hn : 0 < n := Nat.pos_of_ne_zero (NeZero.ne n)
  obtain ⟨i, -, h⟩ := C17_sample weighted unique dataset choice hc hn hs
  exact ⟨⟨_, h⟩, mmdCompute_ok big k hn hq _ _⟩

end

/-- Three labelled points: herding two of them fails, although the same points without labels can be herded. -/
example : herdingReduceS (n := 3) (1000 : ℚ) (fun x y : ℚ => x * y) none true (.leaf none) 2
      (⟨⟨fun i => (i : ℕ), fun _ => 1⟩, some fun i => decide ((i : ℕ) = 1)⟩ : DSet 3 ℚ Bool ℚ) none (List.finRange _) = .error .valueError ∧
    ∃ r, herdingReduceS (n := 3) (1000 : ℚ) (fun x y : ℚ => x * y) none true (.leaf none) 2
      (⟨⟨fun i => (i : ℕ), fun _ => 1⟩, none⟩ : DSet 3 ℚ Bool ℚ) none (List.finRange _) = .ok r := by
  refine ⟨(C55_herding_rejects (m := 2) _ _ _ _ _ _ _ (by simp) _).2 _, ?_⟩
  rw [C55_herding_unsupervised _ _ _ _ _ _ _ rfl]
  obtain ⟨f, hf, -⟩ := C12_reduce_greedy (1000 : ℚ) (fun x y : ℚ => x * y) (fun a b => mul_comm a b) true (.leaf none) (Or.inl rfl) 2 (by norm_num)
    (⟨fun i => ((i : ℕ) : ℚ), fun _ => 1⟩ : Data 3 ℚ ℚ) (by simp) none (by simp) (List.finRange _) (List.mem_finRange) (by simp [PosCount])
  exact ⟨_, hf⟩

/-- The conversion in `C55_ksd_value` succeeds for a Stein kernel; comparison data with labels are accepted. -/
example (K : KExpr 2) (s : Vec 2 → Vec 2) :
    ∃ r, ksdComputeS 1000 (.stein K s) none (⟨⟨fun _ : Fin 3 => 0, fun _ => 1⟩, none⟩ : DSet 3 (Vec 2) Bool ℝ)
      (⟨⟨fun _ : Fin 2 => 0, fun _ => 1⟩, some fun _ => true⟩ : DSet 2 (Vec 2) Bool ℝ) (.leaf none) (fun _ _ => none) (fun _ _ => some fun _ => 1) = .ok r :=
  ⟨_, C55_ksd_value 1000 (.stein K s) (.stein K s) none (.leaf none) (Or.inl rfl) _ rfl rfl two_pos _ (by norm_num) _ _⟩

example (null : NullResolver ℚ) (mode : RecombMode) := C55_recombination_rejects 1000 null (fun x : ℚ => ![x]) mode 2 (⟨⟨![1, 2, 3], ![1, 1, 1]⟩, some ![true, false, true]⟩ : DSet 3 ℚ Bool ℚ) (by simp)

example (logpdf : Fin 3 → ℝ) := C55_stein_rejects (m := 1) 1000 (.laplacian 2 1 : KExpr 1) none true ⟨true, none, logpdf⟩ (.leaf none) 2
  (⟨⟨fun _ => 1, ![1, 1, 1]⟩, some ![true, false, true]⟩ : DSet 3 (Vec 1) Bool ℝ) (by simp)

example (choice : Choice 3 1 ℝ) := C55_thinning_rejects 1000 (fun a b : ℝ => a * b) (fun a b : ℝ => a * b) (Ext.fin 1) (fun _ => 1 / 2) choice [0] 1
  (⟨⟨![1, 2, 3], ![1, 1, 1]⟩, some ![true, false, true]⟩ : DSet 3 ℝ Bool ℝ) (by simp)

example (logpdf : Fin 3 → ℝ) := C55_unsupervised_same (m := 1) 1000 (.laplacian 2 1 : KExpr 1) none true ⟨true, none, logpdf⟩ (.leaf none) 2 (⟨⟨fun _ => 1, ![1, 1, 1]⟩, none⟩ : DSet 3 (Vec 1) Bool ℝ) rfl

end Coreax
