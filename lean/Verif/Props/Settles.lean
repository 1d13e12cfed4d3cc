import Verif.Lemmas.Settle
import Verif.Props.HerdingLaws
import Verif.Props.Stein
import Verif.Props.HerdingCases

/-!
# C106: refining again and again

Repeating the refinement pass of kernel herding (`reduce_iterative`) or of Stein thinning comes to rest after finitely many
passes.  Where it rests, no exchange of a single member helps; an exchange of two members may.
-/

set_option linter.unusedSectionVars false

namespace Coreax

open Greedy Spec

variable {X K : Type*} [Zero X] [Field K] [LinearOrder K] [IsStrictOrderedRing K]
variable {n : ℕ} [NeZero n] {m : ℕ}

/-! ### Specification -/

/-- The squared MMD of an unweighted coreset without the terms `k(y, y)`: what herding lowers. -/
def Spec.crossTotal (k : X → X → K) {N T : ℕ} (x : Fin N → X) (w : Fin N → K) (y : Fin T → X) : K :=
  mmdSq k x w y (fun _ => 1) - (∑ t, k (y t) (y t)) / (T : K) ^ 2

/-- What Stein thinning lowers: the sum of all kernel values between members, with the regularisation of each position. -/
def Spec.steinTotal (k : X → X → K) (x : Fin n → X) (lap logp : Fin n → K) (f : Fin m → Fin n) : K :=
  (∑ t, ∑ s, k (x (f t)) (x (f s))) + ∑ t, (lap (f t) - (((t : ℕ) : K) + 1) * logp (f t))

/-- Row `j` may replace the member at position `i`. -/
def Spec.MayReplace (w : Fin n → K) (unique : Bool) (f : Fin m → Fin n) (i : Fin m) (j : Fin n) : Prop :=
  0 < w j ∧ (unique = true → ∀ t, t ≠ i → f t ≠ j)

/-! ### Links to the potential -/

namespace Settle

/-- First part of the score of kernel herding. -/
def hA (k : X → X → K) (x : Fin n → X) (w : Fin n → K) : Fin m → Fin n → K := fun _ j => avg w (fun l => k (x l) (x j))

/-- Second part of the score of kernel herding. -/
def hB (k : X → X → K) (x : Fin n → X) (m : ℕ) : Fin n → Fin n → K := fun j l => k (x j) (x l) / (m : K)

theorem spread_eq (k : X → X → K) (x : Fin n → X) (w : Fin n → K) (hm : 0 < m) (c : Fin m → Fin n) :
    crossTotal k x w (fun t => x (c t))
      = avg w (fun i => avg w fun j => k (x i) (x j)) - pot (hA k x w) (hB k x m) c / (m : K) := by
  have hm' : (m : K) ≠ 0 := by positivity
  have h1 : avg w (fun l => avg (fun _ : Fin m => (1 : K)) fun t => k (x l) (x (c t)))
      = (∑ t, avg w fun l => k (x l) (x (c t))) / (m : K) := by
    simp only [avg, one_mul, Finset.sum_const, Finset.card_univ, Fintype.card_fin, nsmul_eq_mul, mul_one]
    have e : ∑ l, w l * ((∑ t, k (x l) (x (c t))) / (m : K)) = (∑ t, ∑ l, w l * k (x l) (x (c t))) / (m : K) := by
      rw [Finset.sum_comm, Finset.sum_div]
      refine Finset.sum_congr rfl (fun l _ => ?_)
      rw [← Finset.mul_sum, mul_div_assoc]
    rw [e, ← Finset.sum_div]
    ring
  have h2 : avg (fun _ : Fin m => (1 : K)) (fun t => avg (fun _ : Fin m => (1 : K)) fun s => k (x (c t)) (x (c s)))
      = (∑ t, ∑ s, k (x (c t)) (x (c s))) / (m : K) ^ 2 := by
    simp only [avg, one_mul, Finset.sum_const, Finset.card_univ, Fintype.card_fin, nsmul_eq_mul, mul_one]
    rw [← Finset.sum_div, div_div, ← pow_two]
  unfold crossTotal mmdSq
  rw [h2, h1]
  unfold pot hA hB
  simp only [← Finset.sum_div]
  field_simp
  ring

theorem hB_symm (k : X → X → K) (hk : ∀ a b, k a b = k b a) (x : Fin n → X) (i j : Fin n) :
    hB k x m i j = hB k x m j i := by unfold hB; rw [hk]

theorem herding_pass (k : X → X → K) (x : Fin n → X) (w : Fin n → K) (unique : Bool) (c f : Fin m → Fin n) (u : K)
    (hu : 0 < u) (hcpos : ∀ t, 0 < w (c t)) (hinj : unique = true → Function.Injective c)
    (h : HerdingRun k x w unique c (fun _ => u) f) : Pass (hA k x w) (hB k x m) c f := by
  intro i
  refine ⟨_, allowed_old hu hcpos hinj (fun t => (h t).1) i, ?_⟩
  have := h i
  simp only [otherSum_eq k x c f u hu, otherCount_eq u hu i] at this
  simpa only [hA, hB, ← Finset.sum_div] using this

/-- First part of the score of Stein thinning. -/
def sA (k : X → X → K) (x : Fin n → X) (lap logp : Fin n → K) : Fin m → Fin n → K :=
  fun i j => -(k (x j) (x j) + lap j - (((i : ℕ) : K) + 1) * logp j)

/-- Second part of the score of Stein thinning. -/
def sB (k : X → X → K) (x : Fin n → X) : Fin n → Fin n → K := fun j l => 2 * k (x j) (x l)

theorem steinTotal_eq (k : X → X → K) (x : Fin n → X) (lap logp : Fin n → K) (f : Fin m → Fin n) :
    steinTotal k x lap logp f = -(pot (sA k x lap logp) (sB k x) f / 2) := by
  unfold steinTotal pot sA sB
  simp only [← Finset.mul_sum, Finset.sum_neg_distrib, Finset.sum_add_distrib, Finset.sum_sub_distrib]
  ring

theorem stein_pass (k : X → X → K) (x : Fin n → X) (w lap logp : Fin n → K) (unique : Bool) (c f : Fin m → Fin n) (u : K)
    (hu : 0 < u) (hcpos : ∀ t, 0 < w (c t)) (hinj : unique = true → Function.Injective c)
    (h : SteinRun k x w lap logp unique c (fun _ => u) f) : Pass (sA k x lap logp) (sB k x) c f := by
  intro i
  refine ⟨_, allowed_old hu hcpos hinj (fun t => (h t).1) i, ?_⟩
  have := h i
  simp only [otherSum_eq k x c f u hu] at this
  have e : (fun j => -(k (x j) (x j) + lap j - (((i : ℕ) : K) + 1) * logp j
        + 2 * ∑ s ∈ Finset.univ.erase i, k (x j) (x (hyb c f i s))))
      = fun j => sA k x lap logp i j - ∑ s ∈ Finset.univ.erase i, sB k x j (hyb c f i s) := by
    funext j
    simp only [sA, sB, ← Finset.mul_sum]
    ring
  rw [← e]
  exact this

theorem mayReplace_allowed {w : Fin n → K} {unique : Bool} {f : Fin m → Fin n} {u : K} {i : Fin m} {j : Fin n}
    (h : MayReplace w unique f i j) : Spec.Allowed w unique f (fun _ => u) f i j :=
  ⟨h.1, fun hu => ⟨fun t ht => h.2 hu t ht.ne, fun t ht _ hft => absurd hft (h.2 hu t (by
    intro hh; subst hh; exact lt_irrefl _ ht))⟩⟩

/-- One pass of herding over a full coreset, for every symmetric kernel. -/
theorem herding_refine (big : K) (k : X → X → K) (hk : ∀ a b, k a b = k b a) (unique : Bool)
    (bs : PyTree (Option ℤ)) (hbs : ValidBlock bs) (hm : 0 < m) (pre : Data n X K)
    (hw : ∑ j, pre.weights j ≠ 0) (c : Fin m → Fin n) (u : K) (hu : 0 < u) (state : Option (List K))
    (hst : ∀ l, state = some l → gramianRowMean big k pre bs = .ok l)
    (ord : List (Fin (m + (m - m)))) (hord : ∀ t, t ∈ ord) (hpos : PosCount pre.weights m) :
    ∃ f : Fin m → Fin n, ∃ st, herdingRefine big k none unique bs m pre ⟨fun t => (c t : ℤ), fun _ => u⟩ state ord
        = .ok (⟨fun t => (f t : ℤ), fun _ => 1⟩, st) ∧ gramianRowMean big k pre bs = .ok st ∧
      (∀ t, 0 < pre.weights (f t)) ∧ (unique = true → Function.Injective f) ∧
      HerdingRun k pre.data pre.weights unique c (fun _ => u) f := by
  have hcw : ∀ t, (padIndices (⟨fun t => (c t : ℤ), fun _ => u⟩ : Data m ℤ K) m).weights t = u := by
    intro t
    refine Fin.addCases (fun a => ?_) (fun a => ?_) t
    · simp [padIndices, zeroPad]
    · exact absurd a.2 (by omega)
  have hin : InRange (K := K) n (⟨fun t => (c t : ℤ), fun _ => u⟩ : Data m ℤ K) := by
    intro t
    have := (c t).2
    exact ⟨by simp, by simp⟩
  have hmem : members (K := K) (⟨fun t => (c t : ℤ), fun _ => u⟩ : Data m ℤ K) = c := by
    funext t; simp [members]
  obtain ⟨f, hf, hrun⟩ := C12_refine_greedy big k hk unique bs hbs m hm pre hw
    ⟨fun t => (c t : ℤ), fun _ => u⟩ hin ⟨u, hu, fun _ => Or.inr rfl⟩ (fun _ t t' _ _ => by rw [hcw]; exact hu)
    state hst ord hord (by simpa using hpos)
  rw [hmem] at hrun
  obtain ⟨f', st', hf', h1, h2⟩ := C11_refine_valid big k none unique bs hbs m hm pre (by intro d hd; cases hd)
    ⟨fun t => (c t : ℤ), fun _ => u⟩ hin state ord hord (by simpa using hpos)
  have hff : f' = f := by
    rw [hf] at hf'
    injection hf' with hf'
    injection hf' with hf' _
    injection hf' with hf' _
    funext t
    have := congrFun hf' t
    exact (Fin.ext (by exact_mod_cast this)).symm
  subst hff
  exact ⟨f', _, hf, C05_gramian_row_mean big k hk (NeZero.pos n) pre hw bs hbs, h1, h2, hrun⟩

/-- One pass of Stein thinning over a full coreset. -/
theorem stein_refine (big : K) (k : X → X → K) (unique : Bool) (bs : PyTree (Option ℤ)) (hbs : ValidBlock bs) (hm : 0 < m)
    (pre : Data n X K) (c : Fin m → Fin n) (u : K) (hu : 0 < u) (reg : Option (SteinReg n K))
    (ord : List (Fin (m + (m - m)))) (hord : ∀ t, t ∈ ord) (hpos : PosCount pre.weights m) :
    ∃ f : Fin m → Fin n, steinRefine big k unique bs m pre ⟨fun t => (c t : ℤ), fun _ => u⟩ reg ord
        = .ok ⟨fun t => (f t : ℤ), fun _ => 1⟩ ∧
      (∀ t, 0 < pre.weights (f t)) ∧ (unique = true → Function.Injective f) ∧
      SteinRun k pre.data pre.weights (regLap reg) (regLogp reg) unique c (fun _ => u) f := by
  have hcw : ∀ t, (padIndices (⟨fun t => (c t : ℤ), fun _ => u⟩ : Data m ℤ K) m).weights t = u := by
    intro t
    refine Fin.addCases (fun a => ?_) (fun a => ?_) t
    · simp [padIndices, zeroPad]
    · exact absurd a.2 (by omega)
  have hin : InRange (K := K) n (⟨fun t => (c t : ℤ), fun _ => u⟩ : Data m ℤ K) := by
    intro t
    have := (c t).2
    exact ⟨by simp, by simp⟩
  have hmem : members (K := K) (⟨fun t => (c t : ℤ), fun _ => u⟩ : Data m ℤ K) = c := by
    funext t; simp [members]
  obtain ⟨f, hf, hrun⟩ := C15_refine_greedy big k unique bs hbs m hm pre
    ⟨fun t => (c t : ℤ), fun _ => u⟩ hin ⟨u, hu, fun _ => Or.inr rfl⟩ (fun _ t t' _ _ => by rw [hcw]; exact hu)
    reg ord hord (by simpa using hpos)
  rw [hmem] at hrun
  obtain ⟨f', hf', h1, h2⟩ := C15_refine_valid big k unique bs hbs m hm pre
    ⟨fun t => (c t : ℤ), fun _ => u⟩ hin reg ord hord (by simpa using hpos)
  have hff : f' = f := by
    rw [hf] at hf'
    injection hf' with hf'
    injection hf' with hf' _
    funext t
    have := congrFun hf' t
    exact (Fin.ext (by exact_mod_cast this)).symm
  subst hff
  exact ⟨f', hf, h1, h2, hrun⟩

end Settle

/-! ### Kernel herding -/

/-- A refinement pass over a full, uniformly weighted coreset never raises the crossTotal, whatever the kernel's diagonal; and if
it leaves the crossTotal as it was, then it only moves members to earlier rows of the dataset. -/
theorem C106_descent (big : K) (k : X → X → K) (hk : ∀ a b, k a b = k b a) (unique : Bool)
    (bs : PyTree (Option ℤ)) (hbs : ValidBlock bs) (hm : 0 < m) (pre : Data n X K)
    (hw : ∑ j, pre.weights j ≠ 0) (c : Fin m → Fin n) (u : K) (hu : 0 < u) (hcpos : ∀ t, 0 < pre.weights (c t))
    (hinj : unique = true → Function.Injective c) (ord : List (Fin (m + (m - m)))) (hord : ∀ t, t ∈ ord)
    (hpos : PosCount pre.weights m) :
    ∃ f : Fin m → Fin n, ∃ st, herdingRefine big k none unique bs m pre ⟨fun t => (c t : ℤ), fun _ => u⟩ none ord
        = .ok (⟨fun t => (f t : ℤ), fun _ => 1⟩, st) ∧
      crossTotal k pre.data pre.weights (fun t => pre.data (f t)) ≤ crossTotal k pre.data pre.weights (fun t => pre.data (c t)) ∧
      (crossTotal k pre.data pre.weights (fun t => pre.data (f t)) = crossTotal k pre.data pre.weights (fun t => pre.data (c t)) →
        ∀ t, f t ≤ c t) := by
  obtain ⟨f, st, hf, -, -, -, hrun⟩ := Settle.herding_refine big k hk unique bs hbs hm pre hw c u hu none (by simp) ord
    hord hpos
  have hp := Settle.pass_le (Settle.hB_symm k hk pre.data)
    (Settle.herding_pass k pre.data pre.weights unique c f u hu hcpos hinj hrun)
  have hm' : (0 : K) < m := by exact_mod_cast hm
  refine ⟨f, st, hf, ?_, fun h => hp.2 ?_⟩
  · rw [Settle.spread_eq k _ _ hm, Settle.spread_eq k _ _ hm]
    have := div_le_div_of_nonneg_right hp.1 hm'.le
    linarith
  · rw [Settle.spread_eq k _ _ hm, Settle.spread_eq k _ _ hm] at h
    exact (div_left_inj' hm'.ne').1 (by linarith)

/-- Iterative refinement comes to rest: from some iteration on (fewer than `n ^ size`), the result does not change any more.
Where it rests, no single member can be exchanged for another row with a smaller crossTotal. -/
theorem C106_settles (big : K) (k : X → X → K) (hk : ∀ a b, k a b = k b a) (unique : Bool)
    (bs : PyTree (Option ℤ)) (hbs : ValidBlock bs) (size : ℕ) (hsize : 0 < size) (pre : Data n X K)
    (hw : ∑ j, pre.weights j ≠ 0) (ord : List (Fin (size + (size - size)))) (hord : ∀ t, t ∈ ord)
    (hpos : PosCount pre.weights size) :
    ∃ f : Fin size → Fin n, ∃ st, ∃ N₀, N₀ < n ^ size ∧
      (∀ N, N₀ ≤ N → herdingReduceIterative big k (fun _ => none) unique bs size pre none ord (N + 1)
        = .ok (⟨fun t => (f t : ℤ), fun _ => 1⟩, st)) ∧
      ∀ i j, MayReplace pre.weights unique f i j →
        crossTotal k pre.data pre.weights (fun t => pre.data (f t))
          ≤ crossTotal k pre.data pre.weights (fun t => pre.data (Function.update f i j t)) := by
  have hle : size ≤ n := by
    refine hpos.trans ?_
    simpa using Finset.card_le_univ (Finset.univ.filter (fun j => 0 < pre.weights j))
  have hrm := C05_gramian_row_mean big k hk (NeZero.pos n) pre hw bs hbs
  set st := List.ofFn fun j => avg pre.weights (fun i => k (pre.data i) (pre.data j)) with hstdef
  obtain ⟨-, hs⟩ := C14_iterative big k (fun _ => none) unique bs size pre none ord hle st hrm
  have hvalid : ∀ N, ∃ f : Fin size → Fin n,
      herdingReduceIterative big k (fun _ => none) unique bs size pre none ord (N + 1)
        = .ok (⟨fun t => (f t : ℤ), fun _ => 1⟩, st) ∧
      (∀ t, 0 < pre.weights (f t)) ∧ (unique = true → Function.Injective f) := by
    intro N
    induction N with
    | zero =>
      obtain ⟨f, st', h1, h2, h3⟩ := C11_reduce_valid big k none unique bs hbs size hsize pre
        (by intro d hd; cases hd) none ord hord hpos
      obtain ⟨f', h1', -⟩ := C12_reduce_greedy big k hk unique bs hbs size hsize pre hw none (by simp) ord hord hpos
      rw [h1] at h1'
      injection h1' with h1'
      injection h1' with _ h1'
      refine ⟨f, ?_, h2, h3⟩
      rw [C14_iterative_one big k _ unique bs hbs, h1, h1']
    | succ N ih =>
      obtain ⟨f, hf, h2, h3⟩ := ih
      obtain ⟨f', st', hf', hst', h2', h3', -⟩ := Settle.herding_refine big k hk unique bs hbs hsize pre hw
        f 1 one_pos (some st) (by intro l hl; cases hl; exact hrm) ord hord hpos
      refine ⟨f', ?_, h2', h3'⟩
      rw [hs (N + 1), hf]
      simp only
      rw [hf']
      rw [hrm] at hst'
      injection hst' with hst'
      rw [hst']
  choose g hg h2 h3 using hvalid
  have hgeq : ∀ M N, herdingReduceIterative big k (fun _ => none) unique bs size pre none ord (M + 1)
      = herdingReduceIterative big k (fun _ => none) unique bs size pre none ord (N + 1) → g M = g N := by
    intro M N h
    rw [hg M, hg N] at h
    injection h with h
    injection h with h _
    injection h with h _
    funext t
    exact Fin.ext (by exact_mod_cast congrFun h t)
  have hrun : ∀ N, HerdingRun k pre.data pre.weights unique (g N) (fun _ => 1) (g (N + 1)) := by
    intro N
    obtain ⟨f', st', hf', -, -, -, hr⟩ := Settle.herding_refine big k hk unique bs hbs hsize pre hw
      (g N) 1 one_pos (some st) (by intro l hl; cases hl; exact hrm) ord hord hpos
    have heq := hg (N + 1)
    rw [hs (N + 1), hg N] at heq
    simp only at heq
    rw [hf'] at heq
    injection heq with heq
    injection heq with heq _
    injection heq with heq _
    have : f' = g (N + 1) := by
      funext t
      exact Fin.ext (by exact_mod_cast congrFun heq t)
    rwa [this] at hr
  obtain ⟨N₀, hN₀, hrest⟩ := Settle.settles (Settle.hB_symm k hk pre.data) g
    (fun N => Settle.herding_pass k pre.data pre.weights unique (g N) (g (N + 1)) 1 one_pos (h2 N) (h3 N) (hrun N))
    (fun M N h => hgeq _ _ (by rw [hs (M + 1), hs (N + 1), hg M, hg N, h]))
  refine ⟨g N₀, st, N₀, hN₀, fun N hN => by rw [hg N, hrest N hN], fun i j hij => ?_⟩
  have hr := hrun N₀
  rw [hrest (N₀ + 1) (by omega)] at hr
  have hle' := (hr i).2.1 j (Settle.mayReplace_allowed hij)
  simp only [Settle.otherSum_eq k pre.data _ _ 1 one_pos, Settle.otherCount_eq (1 : K) one_pos i, Settle.hyb_same] at hle'
  have hpot := Settle.fixed_local (a := Settle.hA k pre.data pre.weights) (Settle.hB_symm (m := size) k hk pre.data)
    (g N₀) i j (by simpa only [Settle.hA, Settle.hB, ← Finset.sum_div] using hle')
  rw [Settle.spread_eq k _ _ hsize, Settle.spread_eq k _ _ hsize]
  have hm' : (0 : K) < size := by exact_mod_cast hsize
  have := div_le_div_of_nonneg_right hpot hm'.le
  linarith

/-- For kernels that are constant on the diagonal the same holds of the MMD. -/
theorem C106_settles_mmd (big : K) (k : X → X → K) (hk : ∀ a b, k a b = k b a) (unique : Bool)
    (bs : PyTree (Option ℤ)) (hbs : ValidBlock bs) (size : ℕ) (hsize : 0 < size) (pre : Data n X K)
    (hdiag : ∀ i j, k (pre.data i) (pre.data i) = k (pre.data j) (pre.data j))
    (hw : ∑ j, pre.weights j ≠ 0) (ord : List (Fin (size + (size - size)))) (hord : ∀ t, t ∈ ord)
    (hpos : PosCount pre.weights size) :
    ∃ f : Fin size → Fin n, ∃ st, ∃ N₀, N₀ < n ^ size ∧
      (∀ N, N₀ ≤ N → herdingReduceIterative big k (fun _ => none) unique bs size pre none ord (N + 1)
        = .ok (⟨fun t => (f t : ℤ), fun _ => 1⟩, st)) ∧
      ∀ i j, MayReplace pre.weights unique f i j →
        mmdSq k pre.data pre.weights (fun t => pre.data (f t)) (fun _ => 1)
          ≤ mmdSq k pre.data pre.weights (fun t => pre.data (Function.update f i j t)) (fun _ => 1) := by
  obtain ⟨f, st, N₀, hN₀, h1, h2⟩ := C106_settles big k hk unique bs hbs size hsize pre hw ord hord hpos
  refine ⟨f, st, N₀, hN₀, h1, fun i j hij => ?_⟩
  have := h2 i j hij
  unfold crossTotal at this
  have e : ∑ t, k (pre.data (f t)) (pre.data (f t))
      = ∑ t, k (pre.data (Function.update f i j t)) (pre.data (Function.update f i j t)) :=
    Finset.sum_congr rfl (fun t _ => hdiag _ _)
  rw [e] at this
  linarith

/-- A safe stopping rule: once one more iteration gives the same result, all further ones do. -/
theorem C106_stop (big : K) (k : X → X → K) (unique : Bool) (bs : PyTree (Option ℤ)) (size : ℕ) (hle : size ≤ n)
    (pre : Data n X K) (state : Option (List K)) (ord : List (Fin (size + (size - size)))) (N : ℕ)
    (h : herdingReduceIterative big k (fun _ => none) unique bs size pre state ord (N + 1)
      = herdingReduceIterative big k (fun _ => none) unique bs size pre state ord N) (M : ℕ) (hM : N ≤ M) :
    herdingReduceIterative big k (fun _ => none) unique bs size pre state ord M
      = herdingReduceIterative big k (fun _ => none) unique bs size pre state ord N := by
  cases hrm : cachedRowMean big k pre bs state with
  | error e =>
    have : ∀ L, herdingReduceIterative big k (fun _ => none) unique bs size pre state ord L = .error e := by
      intro L
      unfold herdingReduceIterative initialCoresubset
      rw [if_neg (by omega)]
      simp [hrm]
    rw [this, this]
  | ok rm =>
    obtain ⟨-, hs⟩ := C14_iterative big k (fun _ => none) unique bs size pre state ord hle rm hrm
    induction M, hM using Nat.le_induction with
    | base => rfl
    | succ M _ ih => rw [hs M, ih, ← hs N, h]

/-! ### Stein thinning -/

/-- Repeated refinement with Stein thinning comes to rest as well, regularised or not; where it rests, no exchange of a single
member lowers the sum of the kernel values plus the regularisation. -/
theorem C106_stein (big : K) (k : X → X → K) (hk : ∀ a b, k a b = k b a) (unique : Bool)
    (bs : PyTree (Option ℤ)) (hbs : ValidBlock bs) (size : ℕ) (hsize : 0 < size) (pre : Data n X K)
    (reg : Option (SteinReg n K)) (ord : List (Fin (size + (size - size)))) (hord : ∀ t, t ∈ ord)
    (hpos : PosCount pre.weights size) (g : ℕ → Data size ℤ K)
    (h0 : steinReduce big k unique bs size pre reg ord = .ok (g 0))
    (hg : ∀ N, steinRefine big k unique bs size pre (g N) reg ord = .ok (g (N + 1))) :
    ∃ f : Fin size → Fin n, ∃ N₀, N₀ < n ^ size ∧ (∀ N, N₀ ≤ N → g N = ⟨fun t => (f t : ℤ), fun _ => 1⟩) ∧
      ∀ i j, MayReplace pre.weights unique f i j →
        steinTotal k pre.data (regLap reg) (regLogp reg) f
          ≤ steinTotal k pre.data (regLap reg) (regLogp reg) (Function.update f i j) := by
  have hvalid : ∀ N, ∃ f : Fin size → Fin n, g N = ⟨fun t => (f t : ℤ), fun _ => 1⟩ ∧
      (∀ t, 0 < pre.weights (f t)) ∧ (unique = true → Function.Injective f) := by
    intro N
    induction N with
    | zero =>
      have hle : size ≤ n := by
        refine hpos.trans ?_
        simpa using Finset.card_le_univ (Finset.univ.filter (fun j => 0 < pre.weights j))
      unfold steinReduce initialCoresubset at h0
      rw [if_neg (by omega)] at h0
      simp only at h0
      obtain ⟨f, hf, h2, h3⟩ := C15_refine_valid big k unique bs hbs size hsize pre ⟨fun _ => 0, fun _ => 0⟩
        (inRange_zero size) reg ord hord (by simpa using hpos)
      rw [hf] at h0
      injection h0 with h0
      exact ⟨f, h0.symm, h2, h3⟩
    | succ N ih =>
      obtain ⟨f, hf, h2, h3⟩ := ih
      obtain ⟨f', hf', h2', h3', -⟩ := Settle.stein_refine big k unique bs hbs hsize pre f 1 one_pos reg ord hord hpos
      have := hg N
      rw [hf, hf'] at this
      injection this with this
      exact ⟨f', this.symm, h2', h3'⟩
  choose f hf h2 h3 using hvalid
  have hfeq : ∀ M N, g M = g N → f M = f N := by
    intro M N h
    rw [hf M, hf N] at h
    injection h with h _
    funext t
    exact Fin.ext (by exact_mod_cast congrFun h t)
  have hrun : ∀ N, SteinRun k pre.data pre.weights (regLap reg) (regLogp reg) unique (f N) (fun _ => 1) (f (N + 1)) := by
    intro N
    obtain ⟨f', hf', -, -, hr⟩ := Settle.stein_refine big k unique bs hbs hsize pre (f N) 1 one_pos reg ord hord hpos
    have heq := hg N
    rw [hf N, hf', hf (N + 1)] at heq
    injection heq with heq
    injection heq with heq _
    have : f' = f (N + 1) := by
      funext t
      exact Fin.ext (by exact_mod_cast congrFun heq t)
    rwa [this] at hr
  have hB : ∀ i j, Settle.sB k pre.data i j = Settle.sB k pre.data j i := fun i j => by unfold Settle.sB; rw [hk]
  obtain ⟨N₀, hN₀, hrest⟩ := Settle.settles hB f
    (fun N => Settle.stein_pass k pre.data pre.weights _ _ unique (f N) (f (N + 1)) 1 one_pos (h2 N) (h3 N) (hrun N))
    (fun M N h => hfeq _ _ (by
      have e1 := hg M
      have e2 := hg N
      rw [hf M, h, ← hf N, e2] at e1
      injection e1 with e1
      exact e1.symm))
  refine ⟨f N₀, N₀, hN₀, fun N hN => by rw [hf N, hrest N hN], fun i j hij => ?_⟩
  have hr := hrun N₀
  rw [hrest (N₀ + 1) (by omega)] at hr
  have hle' := (hr i).2.1 j (Settle.mayReplace_allowed hij)
  simp only [Settle.otherSum_eq k pre.data _ _ 1 one_pos, Settle.hyb_same] at hle'
  have hpot := Settle.fixed_local (a := Settle.sA k pre.data (regLap reg) (regLogp reg)) hB (f N₀) i j (by
    simp only [Settle.sA, Settle.sB, ← Finset.mul_sum]
    linarith)
  rw [Settle.steinTotal_eq, Settle.steinTotal_eq]
  linarith

/-! ### What the resting place is not -/

/-- The result need not be the best coreset of its size: with the kernel `1/(1 + (a - b)²)`, herding two of the points
0, 1, 2, 3, 5 rests at once at the points 2 and 0, and the points 1 and 3 have the smaller MMD.  It takes two exchanges. -/
theorem C106_not_best : let x : Fin 5 → ℚ := ![0, 1, 2, 3, 5]
    (∀ N, (herdingReduceIterative 1000 invQuad (fun _ => none) true (.leaf none) 2 ⟨x, fun _ => 1⟩ none [0, 1]
      (N + 1)).toOption.map (fun r => List.ofFn r.1.data) = some [2, 0]) ∧
    mmdSq invQuad x (fun _ => 1) (fun t => x ((![1, 3] : Fin 2 → Fin 5) t)) (fun _ => 1)
      < mmdSq invQuad x (fun _ => 1) (fun t => x ((![2, 0] : Fin 2 → Fin 5) t)) (fun _ => 1) := by
  intro x
  refine ⟨?_, by decide +kernel⟩
  obtain ⟨f, st, hf⟩ := C41_iterative_descent 1000 invQuad (fun a b => by unfold invQuad; ring_nf) true (.leaf none)
    (.inl rfl) 2 (by norm_num) (⟨x, fun _ => 1⟩ : Data 5 ℚ ℚ) (fun _ _ => by simp [invQuad]) (by decide +kernel) [0, 1]
    (by decide) (by unfold PosCount; decide +kernel)
  have h1 : (herdingReduceIterative 1000 invQuad (fun _ => none) true (.leaf none) 2 ⟨x, fun _ => 1⟩ none [0, 1]
      (0 + 1)).toOption.map (fun r => List.ofFn r.1.data) = some [2, 0] := by decide +kernel
  have h2 : (herdingReduceIterative 1000 invQuad (fun _ => none) true (.leaf none) 2 ⟨x, fun _ => 1⟩ none [0, 1]
      (1 + 1)).toOption.map (fun r => List.ofFn r.1.data) = some [2, 0] := by decide +kernel
  have heq : f 1 = f 0 := by
    have e1 := h1
    have e2 := h2
    rw [(hf 0).1] at e1
    rw [(hf 1).1] at e2
    simp only [Except.toOption, Option.map_some, Option.some.injEq] at e1 e2
    have e := List.ofFn_injective (e2.trans e1.symm)
    funext t
    exact Fin.ext (by exact_mod_cast congrFun e t)
  intro N
  rw [C106_stop 1000 invQuad true (.leaf none) 2 (by norm_num) _ none [0, 1] (0 + 1)
    (by rw [(hf 0).1, (hf 1).1, heq]) (N + 1) (by omega)]
  exact h1

/-- One pass need not be enough: herding three of the points 0, 1, 3, 5, 7 changes a member in each of the first two
further iterations. -/
theorem C106_several_passes : let x : Fin 5 → ℚ := ![0, 1, 3, 5, 7]
    let r := fun N => (herdingReduceIterative 1000 invQuad (fun _ => none) true (.leaf none) 3 ⟨x, fun _ => 1⟩ none [0, 1, 2]
      N).toOption.map (fun r => List.ofFn r.1.data)
    r 1 = some [1, 3, 4] ∧ r 2 = some [1, 2, 4] ∧ r 3 = some [0, 2, 4] ∧ r 4 = some [0, 2, 4] := by
  decide +kernel

/-- Without a constant diagonal, refinement can raise the MMD and rest where a single exchange would lower it: with the linear
kernel the one-point coreset 1 of the points 0, 1, 2 has MMD zero, and is refined to the point 2. -/
theorem C106_raises : let x : Fin 3 → ℚ := ![0, 1, 2]
    let k := fun a b : ℚ => a * b
    let r := fun c : Fin 3 => (herdingRefine 1000 k none true (.leaf none) 1 ⟨x, fun _ => 1⟩
      (⟨fun _ => (c : ℤ), fun _ => 1⟩ : Data 1 ℤ ℚ) none [0]).toOption.map (fun r => List.ofFn r.1.data)
    r 1 = some [2] ∧ r 2 = some [2] ∧ mmdSq k x (fun _ => 1) (fun _ : Fin 1 => x 1) (fun _ => 1) = 0 ∧
    mmdSq k x (fun _ => 1) (fun _ : Fin 1 => x 2) (fun _ => 1) = 1 ∧
    crossTotal k x (fun _ => 1) (fun _ : Fin 1 => x 2) < crossTotal k x (fun _ => 1) (fun _ : Fin 1 => x 1) := by
  decide +kernel

/-! ### Concrete cases -/

example := C106_descent 1000 (fun a b : ℚ => a * b + 1) (fun a b => by ring) true (.leaf none) (.inl rfl) (by norm_num) (⟨![0, 1, 3], ![1, 2, 0]⟩ : Data 3 ℚ ℚ) (by decide +kernel) ![0, 1] 3 (by norm_num) (by decide +kernel) (fun _ => by decide) [0, 1] (by decide) (by unfold PosCount; decide +kernel)

example := C106_settles 1000 (fun a b : ℚ => a * b + 1) (fun a b => by ring) true (.leaf none) (.inl rfl) 2 (by norm_num) (⟨![0, 1, 3], ![1, 2, 0]⟩ : Data 3 ℚ ℚ) (by decide +kernel) [0, 1] (by decide) (by unfold PosCount; decide +kernel)

example := C106_settles_mmd 1000 invQuad (fun a b => by unfold invQuad; ring_nf) false (.leaf none) (.inl rfl) 3 (by norm_num) (⟨![0, 1, 3, 5, 7], fun _ => 1⟩ : Data 5 ℚ ℚ) (fun _ _ => by simp [invQuad]) (by decide +kernel) [0, 1, 2] (by decide) (by unfold PosCount; decide +kernel)

/-- Repeated Stein thinning of three points with regularisation. -/
example : ∃ g : ℕ → Data 2 ℤ ℚ, ∃ f : Fin 2 → Fin 3, ∃ N₀ < 3 ^ 2, ∀ N, N₀ ≤ N → g N = ⟨fun t => (f t : ℤ), fun _ => 1⟩ := by
  let pre : Data 3 ℚ ℚ := ⟨![0, 1, 3], ![1, 2, 1]⟩
  let k := fun a b : ℚ => a * b + 1
  let reg : Option (SteinReg 3 ℚ) := some ⟨![0, 1, 0], ![1, 2, 3]⟩
  have hpos : PosCount pre.weights 2 := by unfold PosCount; decide +kernel
  have hex : ∀ c : Fin 2 → Fin 3, ∃ f : Fin 2 → Fin 3, steinRefine 1000 k true (.leaf none) 2 pre
      ⟨fun t => (c t : ℤ), fun _ => 1⟩ reg [0, 1] = .ok ⟨fun t => (f t : ℤ), fun _ => 1⟩ := fun c => by
    obtain ⟨f, hf, -⟩ := Settle.stein_refine 1000 k true (.leaf none) (.inl rfl) (by norm_num) pre c 1 one_pos reg [0, 1]
      (by decide) hpos
    exact ⟨f, hf⟩
  choose step hstep using hex
  obtain ⟨f₀, h₀, -⟩ := C15_reduce_greedy 1000 k true (.leaf none) (.inl rfl) 2 (by norm_num) pre reg [0, 1] (by decide) hpos
  let g : ℕ → Data 2 ℤ ℚ := fun N => ⟨fun t => ((step^[N] f₀ t : ℕ) : ℤ), fun _ => 1⟩
  obtain ⟨f, N₀, hN₀, hf, -⟩ := C106_stein 1000 k (fun a b => by ring) true (.leaf none) (.inl rfl) 2 (by norm_num) pre reg
    [0, 1] (by decide) hpos g h₀ (fun N => by
      simp only [g, Function.iterate_succ_apply']
      exact hstep _)
  exact ⟨g, f, N₀, hN₀, hf⟩

end Coreax
