import Verif.Props.Settles
import Verif.Props.IterativeHerding

/-!
# C106: the standard run of the example on iterative herding

`examples/iterative_probabilistic_kh.py` states that standard herding finds a fixed point, so that the recorded values stay
the same from some iteration on.
-/

namespace Coreax

open Greedy Spec

variable {X Key : Type*} [Zero X] {n : ℕ} [NeZero n]

/-- The standard run of the experiment finds a fixed point, after fewer than `n ^ size` iterations: from there on the coreset
and the recorded MMD (for whatever kernel it is computed) are the same.  `n_iter` does not matter for the entries. -/
theorem C106_experiment (o : KeyOps Key n) (key : Key) {L : ℕ} [NeZero L] (big : ℝ) (k mmdKernel : X → X → ℝ)
    (hk : ∀ a b, k a b = k b a) (size : ℕ) (hsize : 0 < size) (pre : Data n X ℝ) (hw : ∑ j, pre.weights j ≠ 0)
    (ord : List (Fin (size + (size - size)))) (hord : ∀ t, t ∈ ord) (hpos : PosCount pre.weights size) :
    ∃ (f : Fin size → Fin n) (N₀ : ℕ) (v : ℝ), N₀ < n ^ size ∧ Function.Injective f ∧
      ∀ N, N₀ ≤ N → ∃ d, iterativeExperiment (L := L) o key none big k mmdKernel size pre ord (N + 1)
          = .ok (⟨fun t => (f t : ℤ), fun _ => 1⟩, d) ∧ ∀ i : Fin (N + 1), N₀ ≤ i → d i = v := by
  obtain ⟨c, st, h1, hinj, h2⟩ := C74_experiment o key (none : Option (Fin L → ℝ)) big k mmdKernel hk size hsize pre hw
    (fun i draw hd => by simp [solverDraw, iterationSettings] at hd) ord hord hpos
  obtain ⟨f, st', N₀, hN₀, h3, -⟩ := C106_settles big k hk true (.leaf none) (.inl rfl) size hsize pre hw ord hord hpos
  have h4 : ∀ M, N₀ ≤ M → c M = f := by
    intro M hM
    have h5 := h1 M
    rw [show (⟨(none : Option (Fin L → ℝ)).isSome, 1, key⟩ : HerdingSettings Key) = ⟨false, 1, key⟩ from rfl,
      C74_not_probabilistic, h3 M hM] at h5
    have h6 := congrArg (fun d : Data size ℤ ℝ × List ℝ => d.1.data) (Except.ok.inj h5)
    funext t
    have h7 : ((f t : ℕ) : ℤ) = ((c M t : ℕ) : ℤ) := congrFun h6 t
    exact (Fin.ext (by exact_mod_cast h7)).symm
  refine ⟨f, N₀, Real.sqrt (max 0 (mmdSq mmdKernel pre.data pre.weights (fun t => pre.data (f t)) (fun _ => 1))), hN₀,
    h4 N₀ le_rfl ▸ hinj N₀, fun N hN => ⟨fun i => Real.sqrt (max 0
      (mmdSq mmdKernel pre.data pre.weights (fun t => pre.data (c i t)) (fun _ => 1))), ?_, fun i hi => ?_⟩⟩
  · rw [h2 N, h4 N hN]
  · simp only [h4 i hi]

example := C106_experiment (L := 1) (simpleKeys 3) 7 1000 (fun a b : ℝ => a * b) (fun a b => 2 * (a * b)) (fun a b => mul_comm a b) 2
  (by norm_num) ⟨![0, 1, 2], ![1, 2, 3]⟩ (by simp [Fin.sum_univ_three]; norm_num) [0, 1] (by decide)
  (by unfold PosCount; rw [Finset.filter_true_of_mem (fun j _ => by fin_cases j <;> norm_num)]; simp)

end Coreax
