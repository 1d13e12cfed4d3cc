import Verif.Props.Nested
import Verif.Props.Reweighting
import Verif.Props.GKP
import Verif.Props.Random
import Verif.Props.SteinKernel

/-!
# C96: Coresets of all the rows, and of a single row
-/

set_option linter.unusedSectionVars false

namespace Coreax

open Spec

/-- Every row of the dataset is selected exactly once. -/
def Spec.EveryRowOnce {n : ℕ} (c : Fin n → ℤ) : Prop := ∀ j : Fin n, ∃! t, c t = j

namespace Extremes

theorem of_injective {n : ℕ} {f : Fin n → Fin n} (hf : Function.Injective f) : EveryRowOnce fun t => (f t : ℤ) := by
  intro j
  obtain ⟨t, ht⟩ := (Finite.injective_iff_surjective.1 hf) j
  refine ⟨t, by simp [ht], fun t' ht' => hf (Fin.ext ?_)⟩
  have ht' : ((f t' : ℕ) : ℤ) = ((j : ℕ) : ℤ) := ht'
  rw [ht]; exact_mod_cast ht'

theorem perm {n : ℕ} {c : Fin n → ℤ} (hc : EveryRowOnce c) : ∃ e : Equiv.Perm (Fin n), c = fun t => ((e t : Fin n) : ℤ) := by
  choose t ht ht' using fun j => (hc j).exists.elim fun t h => (⟨t, h, True.intro⟩ : ∃ t, c t = ((j : Fin n) : ℤ) ∧ True)
  have hinj : Function.Injective t := fun a b hab => by
    have h1 := ht a; have h2 := ht b
    rw [hab, h2] at h1
    exact Fin.ext (by exact_mod_cast h1.symm)
  have hb : Function.Bijective t := ⟨hinj, Finite.injective_iff_surjective.1 hinj⟩
  refine ⟨(Equiv.ofBijective t hb).symm, funext fun s => ?_⟩
  obtain ⟨j, rfl⟩ := hb.2 s
  rw [ht]
  congr 2
  exact ((Equiv.ofBijective t hb).symm_apply_apply j).symm

variable {K : Type*} [Field K] [LinearOrder K] [IsStrictOrderedRing K]

theorem avg_perm {n : ℕ} (e : Equiv.Perm (Fin n)) (g : Fin n → K) : avg (fun _ => 1) (fun t => g (e t)) = avg (fun _ => 1) g := by
  unfold Spec.avg
  rw [Equiv.sum_comp e fun i => 1 * g i]

theorem avg_const {n : ℕ} {u : K} (hu : u ≠ 0) (g : Fin n → K) : avg (fun _ => u) g = avg (fun _ => 1) g := by
  unfold Spec.avg
  rw [← Finset.mul_sum, show ∑ _i : Fin n, u = u * ∑ _i : Fin n, (1 : K) by rw [Finset.mul_sum]; simp, mul_div_mul_left _ _ hu]
  simp

/-- The distance between all the rows with equal weights and all the rows with scaled weights. -/
theorem distSq_scaled {X : Type*} (k : X → X → K) {n : ℕ} (x : Fin n → X) (e : Equiv.Perm (Fin n)) (s : K) :
    distSq k x (fun _ => 1 / (n : K)) (fun t => x (e t)) (fun _ => s * (1 / (n : K))) = (1 - s) ^ 2 * ∑ i, ∑ j, 1 / (n : K) * (1 / (n : K)) * k (x i) (x j) := by
  have h1 : ∑ i, ∑ j, 1 / (n : K) * (s * (1 / (n : K))) * k (x i) (x (e j)) = s * ∑ i, ∑ j, 1 / (n : K) * (1 / (n : K)) * k (x i) (x j) := by
    rw [Finset.mul_sum]
    refine Finset.sum_congr rfl fun i _ => ?_
    rw [Equiv.sum_comp e fun j => 1 / (n : K) * (s * (1 / (n : K))) * k (x i) (x j), Finset.mul_sum]
    exact Finset.sum_congr rfl fun j _ => by ring
  have h2 : ∑ i, ∑ j, s * (1 / (n : K)) * (s * (1 / (n : K))) * k (x (e i)) (x (e j)) = s ^ 2 * ∑ i, ∑ j, 1 / (n : K) * (1 / (n : K)) * k (x i) (x j) := by
    rw [Equiv.sum_comp e fun i => ∑ j, s * (1 / (n : K)) * (s * (1 / (n : K))) * k (x i) (x (e j)), Finset.mul_sum]
    refine Finset.sum_congr rfl fun i _ => ?_
    rw [Equiv.sum_comp e fun j => s * (1 / (n : K)) * (s * (1 / (n : K))) * k (x i) (x j), Finset.mul_sum]
    exact Finset.sum_congr rfl fun j _ => by ring
  unfold distSq
  rw [h1, h2]
  ring

/-- The distance between all the rows with equal weights and all the rows with other weights is a quadratic form. -/
theorem distSq_form {X : Type*} (k : X → X → K) (hk : ∀ a b, k a b = k b a) {n : ℕ} (x : Fin n → X) (e : Equiv.Perm (Fin n)) (v : Fin n → K) :
    distSq k x (fun _ => 1 / (n : K)) (fun t => x (e t)) v = ∑ i, ∑ j, (1 / (n : K) - v (e.symm i)) * (1 / (n : K) - v (e.symm j)) * k (x i) (x j) := by
  symm
  have a1 : ∑ i, ∑ j, 1 / (n : K) * v j * k (x i) (x (e j)) = ∑ i, ∑ j, 1 / (n : K) * v (e.symm j) * k (x i) (x j) :=
    Finset.sum_congr rfl fun i _ => by rw [← Equiv.sum_comp e fun j => 1 / (n : K) * v (e.symm j) * k (x i) (x j)]; simp
  have a2 : ∑ i, ∑ j, v i * v j * k (x (e i)) (x (e j)) = ∑ i, ∑ j, v (e.symm i) * v (e.symm j) * k (x i) (x j) := by
    rw [← Equiv.sum_comp e fun i => ∑ j, v (e.symm i) * v (e.symm j) * k (x i) (x j)]
    exact Finset.sum_congr rfl fun i _ => by rw [← Equiv.sum_comp e fun j => v (e.symm (e i)) * v (e.symm j) * k (x (e i)) (x j)]; simp
  have a3 : ∑ i, ∑ j, v (e.symm i) * (1 / (n : K)) * k (x i) (x j) = ∑ i, ∑ j, 1 / (n : K) * v (e.symm j) * k (x i) (x j) := by
    rw [Finset.sum_comm]
    exact Finset.sum_congr rfl fun i _ => Finset.sum_congr rfl fun j _ => by rw [hk]; ring
  unfold distSq
  rw [a1, a2]
  have a4 : ∀ i j, (1 / (n : K) - v (e.symm i)) * (1 / (n : K) - v (e.symm j)) * k (x i) (x j)
      = 1 / (n : K) * (1 / (n : K)) * k (x i) (x j) - 1 / (n : K) * v (e.symm j) * k (x i) (x j)
        - v (e.symm i) * (1 / (n : K)) * k (x i) (x j) + v (e.symm i) * v (e.symm j) * k (x i) (x j) := fun i j => by ring
  simp only [a4, Finset.sum_add_distrib, Finset.sum_sub_distrib]
  rw [a3]
  ring

theorem sum_sq {n : ℕ} (hn : 0 < n) (s : K) : ∑ _i : Fin n, (s * (1 / (n : K))) ^ 2 = s ^ 2 / n := by
  have hn' : (0 : K) < n := by exact_mod_cast hn
  simp
  field_simp

end Extremes

open Extremes

/-! ### As many points as there are rows -/

section
variable {K : Type*} [Field K] [LinearOrder K] [IsStrictOrderedRing K] {X : Type*} [Zero X] {n : ℕ} [NeZero n]

theorem Extremes.posCount {w : Fin n → K} (hw : ∀ j, 0 < w j) : PosCount w n := by
  unfold PosCount
  simp [hw]

/-- **C96.** If all weights are positive and repetitions are excluded, then asking a solver for as many points as there are
rows returns every row exactly once, with unit weights: kernel herding (deterministic or probabilistic), Stein thinning
(regularised or not), randomly pivoted Cholesky, random sampling (weighted or not) and greedy kernel points with all the
rows as candidates. -/
theorem C96_all (big : K) (k : X → X → K) (bs : PyTree (Option ℤ)) (hbs : ValidBlock bs) (pre : Data n X K) (hw : ∀ j, 0 < pre.weights j)
    (ord : List (Fin (n + (n - n)))) (hord : ∀ t, t ∈ ord) :
    (∀ prob, DrawContract prob pre.weights → ∀ state, ∃ c st, herdingReduce big k prob true bs n pre state ord = .ok (⟨c, fun _ => 1⟩, st) ∧ EveryRowOnce c) ∧
    (∀ reg, ∃ c, steinReduce big k true bs n pre reg ord = .ok ⟨c, fun _ => 1⟩ ∧ EveryRowOnce c) ∧
    (∀ root draw, PivotContract draw → (∀ j, 0 ≤ k (pre.data j) (pre.data j)) →
      ∃ c st, rpcReduce root k pre.data true draw n none = .ok (⟨c, fun _ => 1⟩, st) ∧ EveryRowOnce c) ∧
    (∀ weighted (choice : Choice n n K), ChoiceContract choice →
      ∃ c, randomSample (Y := Unit) weighted true ⟨n, ⟨pre, none⟩⟩ choice = .ok ⟨n, n, ⟨c, fun _ => 1⟩, ⟨pre, none⟩⟩ ∧ EveryRowOnce c) ∧
    ∀ (solve : RlsSolver K), NumericSolver solve → ∀ (y : Fin n → K) (reg : K) (cb lb : Option ℤ) (permC permL : Fin n → Fin n → ℤ), PermContract permC →
      (∀ b, cb = some b → (n : ℤ) ≤ b) → (∀ b, lb = some b → 0 ≤ b) →
      ∃ c G, gkpReduce solve k pre.data y reg true cb lb n permC permL none = .ok (⟨c, fun _ => 1⟩, G) ∧ EveryRowOnce c := by
  have hn : 0 < n := NeZero.pos n
  refine ⟨fun prob hp state => ?_, fun reg => ?_, fun root draw hd hk => ?_, fun weighted choice hc => ?_, fun solve hs y reg cb lb permC permL hC hcb hlb => ?_⟩
  · obtain ⟨f, st, h1, -, h3⟩ := C11_reduce_valid big k prob true bs hbs n hn pre hp state ord hord (posCount hw)
    exact ⟨_, st, h1, of_injective (h3 rfl)⟩
  · obtain ⟨f, h1, -, h3⟩ := C15_reduce_greedy big k true bs hbs n hn pre reg ord hord (posCount hw)
    exact ⟨_, h1, of_injective (h3 rfl)⟩
  · obtain ⟨f, st, h1, h2⟩ := C16_distinct root k pre.data hk true draw hd le_rfl
    exact ⟨_, st, h2, of_injective (h1 rfl)⟩
  · obtain ⟨f, h1, h2⟩ := C17_sample (Y := Unit) weighted true ⟨pre, none⟩ choice hc hn le_rfl
    exact ⟨_, h2, of_injective (h1 rfl)⟩
  · obtain ⟨c, G, h'⟩ := gkpRefine_ok hs k pre.data y reg true cb lb n permC permL none (fun _ : Fin n => (-1 : ℤ)) hn
      (fun ⟨v, e, hv⟩ => by have := hcb v e; omega) (fun ⟨v, e, hv⟩ => by have := hlb v e; omega)
    have h : gkpReduce solve k pre.data y reg true cb lb n permC permL none = .ok (c, G) := by
      rw [← h']; simp [gkpReduce, initialCoresubset]
    have h1 := C18_range hs hC h' (Or.inl hcb)
    have h2 := C18_distinct hs hC h' (Or.inl ⟨hcb, le_rfl⟩)
    refine ⟨c.data, G, ?_, ?_⟩
    · rw [h]
      congr 2
      cases c with
      | mk d w => congr 1; exact funext fun t => (h1 t).1
    · have h3 : ∀ t, ∃ j : Fin n, c.data t = j := fun t => ⟨⟨(c.data t).toNat, by have := (h1 t).2; omega⟩, by have := (h1 t).2; simp; omega⟩
      choose f hf using h3
      rw [show c.data = fun t => (f t : ℤ) from funext hf]
      exact of_injective fun a b hab => h2 (by rw [hf, hf, hab])

/-- The hypotheses of `C96_all` can be met, for instance by three rows with weights 1, 2 and 5. -/
example := C96_all 1000 (fun a b : ℚ => a * b + 1) (.leaf none) (.inl rfl) (⟨![0, 1, 3], ![1, 2, 5]⟩ : Data 3 ℚ ℚ) (by decide) (List.finRange 3) (List.mem_finRange)

/-- One point more is refused, by every solver and whatever its other arguments are. -/
theorem C96_too_many (big : K) (k : X → X → K) (bs : PyTree (Option ℤ)) (pre : Data n X K) (unique : Bool) (size : ℕ) (hs : n < size) (ord : List (Fin (size + (size - size)))) :
    (∀ prob state, herdingReduce big k prob unique bs size pre state ord = .error .valueError) ∧
    (∀ reg, steinReduce big k unique bs size pre reg ord = .error .valueError) ∧
    (∀ root draw state, rpcReduce root k pre.data unique draw size state = .error .valueError) ∧
    (∀ weighted (choice : Choice n size K), randomSample (Y := Unit) weighted unique ⟨n, ⟨pre, none⟩⟩ choice = .error .valueError) ∧
    ∀ (solve : RlsSolver K) (y : Fin n → K) (reg : K) (cb lb : Option ℤ) (permC permL : Fin size → Fin n → ℤ) (state),
      gkpReduce solve k pre.data y reg unique cb lb size permC permL state = .error .valueError := by
  refine ⟨fun prob state => C11_reduce_too_large big k prob unique bs size hs pre state ord, fun reg => C15_reduce_too_large big k unique bs size hs pre reg ord,
    fun root draw state => (C16_error_iff root k pre.data unique draw state).1.2 hs, fun weighted choice => (C17_error_iff weighted unique _ choice (by omega)).1.2 hs, fun solve y reg cb lb permC permL state => ?_⟩
  simp [gkpReduce, initialCoresubset, hs]

example := C96_too_many 1000 (fun a b : ℚ => a * b + 1) (.leaf none) (⟨![0, 1, 3], ![1, 2, 5]⟩ : Data 3 ℚ ℚ) true 4 (by norm_num) (List.finRange 4)

end

section
variable {X : Type*} [Zero X] {n : ℕ} [NeZero n]

/-- Such a coreset is as good as the data as long as the rows of the data are equally weighted: the maximum mean discrepancy
is zero for every kernel, and the Stein discrepancy is that of the data. -/
theorem C96_all_exact (big : ℝ) (k kp : X → X → ℝ) (x : Fin n → X) (u : ℝ) (hu : 0 < u) (c : Fin n → ℤ) (hc : EveryRowOnce c) (bs : PyTree (Option ℤ)) (hbs : ValidBlock bs) :
    mmdCompute big k ⟨x, fun _ => u⟩ ⟨fun t => x (gatherIdx n (c t)), fun _ => 1⟩ bs = .ok 0 ∧
    ksdCompute big kp ⟨fun t => x (gatherIdx n (c t)), fun _ => 1⟩ bs none none = ksdCompute big kp ⟨x, fun _ => u⟩ bs none none := by
  have hn : 0 < n := NeZero.pos n
  have hn' : (0 : ℝ) < n := by exact_mod_cast hn
  obtain ⟨e, rfl⟩ := perm hc
  simp only [gatherIdx_coe]
  have h1 : ∑ _i : Fin n, (1 : ℝ) ≠ 0 := by simp [hn.ne']
  have h2 : ∑ _i : Fin n, u ≠ 0 := by simp [hn.ne', hu.ne']
  have hsq : ∀ q : X → X → ℝ, avg (fun _ => (1 : ℝ)) (fun i => avg (fun _ => 1) fun j => q (x (e i)) (x (e j))) = avg (fun _ => 1) fun i => avg (fun _ => 1) fun j => q (x i) (x j) := fun q => by
    simp only [fun i => avg_perm e fun j => q (x (e i)) (x j)]
    exact avg_perm e fun i => avg (fun _ => 1) fun j => q (x i) (x j)
  constructor
  · rw [C07_compute big k hn hn _ _ h2 h1 bs hbs]
    simp only [mmdSq, avg_const hu.ne', hsq k]
    simp only [fun i => avg_perm e fun j => k (x i) (x j)]
    congr 1
    rw [Real.sqrt_eq_zero']
    exact max_le le_rfl (by linarith)
  · rw [C35_ksd_value big kp hn _ h1 bs hbs, C35_ksd_value big kp hn _ h2 bs hbs]
    simp only [avg_const hu.ne', hsq kp]

example := C96_all_exact 1000 (fun a b : ℝ => a * b + 1) (fun a b : ℝ => a * b) ![0, 1, 3] 2 (by norm_num) _ (of_injective (f := ![2, 0, 1]) (by decide)) (.leaf none) (.inl rfl)

/-- The weights of the data are lost, however: a coreset of all the rows does not represent weighted data. -/
theorem C96_weights_lost (big : ℝ) : ∃ (pre : Data 2 ℝ ℝ) (c : Fin 2 → ℤ) (st : List ℝ) (r : ℝ), (∀ j, 0 < pre.weights j) ∧
    herdingReduce big (fun a b => a * b) none true (.leaf none) 2 pre none [0, 1] = .ok (⟨c, fun _ => 1⟩, st) ∧ EveryRowOnce c ∧
    mmdCompute big (fun a b => a * b) pre ⟨fun t => pre.data (gatherIdx 2 (c t)), fun _ => 1⟩ (.leaf none) = .ok r ∧ 0 < r := by
  have hw : ∀ j, (0 : ℝ) < (![2, 1] : Fin 2 → ℝ) j := by intro j; fin_cases j <;> norm_num
  obtain ⟨c, st, h1, h2⟩ := (C96_all big (fun a b : ℝ => a * b) (.leaf none) (.inl rfl) (⟨![0, 6], ![2, 1]⟩ : Data 2 ℝ ℝ) hw [0, 1] (by decide)).1 none (by simp [DrawContract]) none
  refine ⟨⟨![0, 6], ![2, 1]⟩, c, st, _, hw, h1, h2, C07_compute big _ (by norm_num) (by norm_num) _ _ (by simp [Fin.sum_univ_two]; norm_num) (by simp) _ (.inl rfl), ?_⟩
  obtain ⟨e, rfl⟩ := perm h2
  simp only [gatherIdx_coe, mmdSq, fun i => avg_perm e fun j => (![0, 6] : Fin 2 → ℝ) i * (![0, 6] : Fin 2 → ℝ) j,
    avg_perm e fun i => avg (fun _ => (1 : ℝ)) fun j => (![0, 6] : Fin 2 → ℝ) i * (![0, 6] : Fin 2 → ℝ) j]
  refine Real.sqrt_pos.2 (lt_max_of_lt_right ?_)
  simp only [Spec.avg, Fin.sum_univ_two, Matrix.cons_val_zero, Matrix.cons_val_one]
  norm_num

end

/-! ### Weights for a coreset of all the rows -/

section
variable {K : Type*} [Field K] [LinearOrder K] [IsStrictOrderedRing K] {X Y : Type*} [Zero X] {n : ℕ} [NeZero n]

/-- With a positive regularisation the optimal weights on the simplex for a coreset of all the rows are equal, for every
positive semi-definite kernel: repeated rows make no difference. -/
theorem C96_mmd_weights (qp : SimplexQP K) (hqp : QPContract qp) (big : K) (k : X → X → K) (hk : ∀ a b, k a b = k b a)
    (dataset : DSet n X Y K) (h1 : dataset.sup = none) (hpsd : ∀ v : Fin n → K, 0 ≤ ∑ i, ∑ j, v i * v j * k (dataset.data i) (dataset.data j)) (eps : K) (heps : 0 < eps)
    (c : Fin n → ℤ) (hc : EveryRowOnce c) (bs : PyTree (Option ℤ)) (hbs : ValidBlock bs) :
    mmdWeightsSolve (Y := Y) qp big k dataset ⟨⟨fun t => dataset.data (gatherIdx n (c t)), fun _ => 1⟩, none⟩ eps bs = .ok fun _ => .fin (1 / n) := by
  have hn : 0 < n := NeZero.pos n
  have hn' : (0 : K) < n := by exact_mod_cast hn
  obtain ⟨e, rfl⟩ := perm hc
  simp only [gatherIdx_coe]
  have hpsd' : ∀ (v : Fin n → K), 0 ≤ ∑ i, ∑ j, v i * v j * k (dataset.data (e i)) (dataset.data (e j)) := fun v => by
    have h := hpsd fun i => v (e.symm i)
    rw [← Equiv.sum_comp e] at h
    refine h.trans_eq (Finset.sum_congr rfl fun i _ => ?_)
    rw [← Equiv.sum_comp e]
    simp
  obtain ⟨v, h3, ⟨h4, h5⟩, h6⟩ := C29_optimal qp hqp big k hk hn hn dataset ⟨⟨fun t => dataset.data (e t), fun _ => 1⟩, none⟩ h1 rfl eps heps.le hpsd' bs hbs
  rw [h3]
  have h7 := h6 (fun _ => 1 * (1 / n)) ⟨fun _ => by positivity, by simp⟩
  simp only at h7
  rw [distSq_scaled] at h7
  have h8 : 0 ≤ distSq k dataset.data (fun _ => 1 / (n : K)) (fun t => dataset.data (e t)) v := by
    rw [distSq_form k hk dataset.data e v]
    exact hpsd fun i => 1 / (n : K) - v (e.symm i)
  have h9 : ∑ i, v i ^ 2 ≤ 1 / n := by
    rw [sum_sq hn] at h7
    have : eps * ∑ i, v i ^ 2 ≤ eps * (1 / n) := by nlinarith
    exact le_of_mul_le_mul_left this heps
  have h10 : ∑ i, (v i - 1 / n) ^ 2 ≤ 0 := by
    have h12 : ∑ i, (v i - 1 / n) ^ 2 = ∑ i, v i ^ 2 - 2 / n * ∑ i, v i + ∑ _i : Fin n, ((1 : K) * (1 / (n : K))) ^ 2 := by
      rw [Finset.mul_sum, ← Finset.sum_sub_distrib, ← Finset.sum_add_distrib]
      exact Finset.sum_congr rfl fun i _ => by ring
    rw [h12, h5, sum_sq hn]
    have : (2 : K) / n = 1 / n + 1 / n := by ring
    rw [one_pow]
    linarith
  congr 1
  funext i
  have h11 := (Finset.sum_eq_zero_iff_of_nonneg fun i _ => sq_nonneg (v i - 1 / n)).1 (le_antisymm h10 (Finset.sum_nonneg fun i _ => sq_nonneg _)) i (Finset.mem_univ i)
  rw [sub_eq_zero.1 (pow_eq_zero_iff (two_ne_zero)|>.1 h11)]

/-- Sequential Bayesian quadrature: without regularisation the weights are equal as well; with a positive regularisation they
never are. -/
theorem C96_sbq_weights (solve : LinSolve K) (hsolve : SolveContract solve) (big : K) (k : X → X → K) (hk : ∀ a b, k a b = k b a)
    (dataset : DSet n X Y K) (h1 : dataset.sup = none) (hpd : StrictPD k 0 dataset.data) (eps : K) (heps : 0 ≤ eps)
    (c : Fin n → ℤ) (hc : EveryRowOnce c) (bs : PyTree (Option ℤ)) (hbs : ValidBlock bs) :
    ∃ v, sbqSolve (Y := Y) solve big k dataset ⟨⟨fun t => dataset.data (gatherIdx n (c t)), fun _ => 1⟩, none⟩ eps bs = .ok v ∧ (v = (fun _ => 1 / (n : K)) ↔ eps = 0) := by
  have hn : 0 < n := NeZero.pos n
  have hn' : (0 : K) < n := by exact_mod_cast hn
  obtain ⟨e, rfl⟩ := perm hc
  simp only [gatherIdx_coe]
  have hpd' : StrictPD k eps fun t => dataset.data (e t) := by
    intro v ⟨i, hi⟩
    have h := hpd (fun i => v (e.symm i)) ⟨e i, by simpa using hi⟩
    rw [zero_mul, add_zero, ← Equiv.sum_comp e] at h
    have h2 : ∑ i, ∑ j, v i * v j * k (dataset.data (e i)) (dataset.data (e j)) = ∑ i, ∑ j, v (e.symm (e i)) * v (e.symm j) * k (dataset.data (e i)) (dataset.data j) :=
      Finset.sum_congr rfl fun i _ => by rw [← Equiv.sum_comp e fun j => v (e.symm (e i)) * v (e.symm j) * k (dataset.data (e i)) (dataset.data j)]; simp
    rw [h2]
    exact add_pos_of_pos_of_nonneg h (mul_nonneg heps (Finset.sum_nonneg fun i _ => sq_nonneg _))
  obtain ⟨v, h3, h4⟩ := C30_optimal solve hsolve big k hk hn hn dataset ⟨⟨fun t => dataset.data (e t), fun _ => 1⟩, none⟩ h1 rfl eps bs hbs hpd'
  refine ⟨v, h3, ⟨fun hv => ?_, fun h0 => ?_⟩⟩
  · by_contra h0
    have h0' : 0 < eps := lt_of_le_of_ne heps (Ne.symm h0)
    set S := ∑ i, ∑ j, 1 / (n : K) * (1 / (n : K)) * k (dataset.data i) (dataset.data j) with hS
    have hS0 : 0 < S := by
      have := hpd (fun _ => 1 / (n : K)) ⟨⟨0, hn⟩, by positivity⟩
      rwa [zero_mul, add_zero] at this
    have hden : 0 < n * S + eps := by positivity
    set t := eps / (n * S + eps) with ht
    have ht0 : 0 < t := div_pos h0' hden
    have h5 := h4 (fun _ => (1 - t) * (1 / n)) fun h => by
      have := congrFun (h.trans hv) ⟨0, hn⟩
      have h6 : t * (1 / (n : K)) = 0 := by linear_combination -this
      have : (0 : K) < t * (1 / n) := by positivity
      linarith
    have e1 : distSq k dataset.data (fun _ => 1 / (n : K)) (fun t => dataset.data (e t)) v = 0 := by
      have := distSq_scaled k dataset.data e 1
      simp only [one_mul, sub_self] at this
      rw [hv, this]; ring
    have e2 := distSq_scaled k dataset.data e (1 - t)
    have e3 := sum_sq (K := K) hn
    have e4 : ∑ i, v i ^ 2 = 1 / n := by rw [hv]; have := e3 1; simpa using this
    simp only at h5
    rw [e1, e2, e3, e4, ← hS] at h5
    have h6 : t * (n * S + eps) = eps := div_mul_cancel₀ _ hden.ne'
    have h7 : (1 - (1 - t)) ^ 2 * S + eps * ((1 - t) ^ 2 / n) = eps * (1 / n) - t * eps / n := by
      field_simp
      linear_combination t * h6
    have h8 : 0 < t * eps / n := by positivity
    linarith
  · by_contra hne
    have h5 := h4 (fun _ => 1 * (1 / n)) fun h => hne (by rw [← h]; simp)
    simp only [h0, zero_mul, add_zero] at h5
    rw [distSq_scaled, sub_self] at h5
    have h6 : 0 ≤ distSq k dataset.data (fun _ => 1 / (n : K)) (fun t => dataset.data (e t)) v := by
      rw [distSq_form k hk dataset.data e v]
      by_cases hz : ∃ i, 1 / (n : K) - v (e.symm i) ≠ 0
      · have := hpd (fun i => 1 / (n : K) - v (e.symm i)) hz
        rw [zero_mul, add_zero] at this
        exact this.le
      · push Not at hz
        simp only [hz, zero_mul, Finset.sum_const_zero, le_refl]
    linarith [h5.trans_eq (show (0 : K) ^ 2 * _ = 0 by ring)]

/-- Two rows and the kernel `1 + ab` meet the hypotheses; also for the weights on the simplex. -/
example (solve : LinSolve ℚ) (hsolve : SolveContract solve) (qp : SimplexQP ℚ) (hqp : QPContract qp) (eps : ℚ) (heps : 0 < eps) :=
  have hpd : StrictPD (fun a b : ℚ => a * b + 1) 0 (![0, 1] : Fin 2 → ℚ) := by
    intro v hv
    simp only [Fin.sum_univ_two, Matrix.cons_val_zero, Matrix.cons_val_one]
    have : v 0 ≠ 0 ∨ v 1 ≠ 0 := by
      obtain ⟨i, hi⟩ := hv
      fin_cases i
      · exact Or.inl hi
      · exact Or.inr hi
    have h1 : 0 < v 1 ^ 2 + (v 0 + v 1) ^ 2 := by
      rcases this with h | h
      · by_cases h' : v 1 = 0
        · rw [h', add_zero]; positivity
        · positivity
      · positivity
    nlinarith
  have h1 := C96_sbq_weights (Y := Unit) solve hsolve 1000 (fun a b : ℚ => a * b + 1) (fun a b => by ring) ⟨⟨![0, 1], ![1, 1]⟩, none⟩ rfl hpd eps heps.le _ (of_injective (f := ![1, 0]) (by decide)) (.leaf none) (.inl rfl)
  have h2 := C96_mmd_weights (Y := Unit) qp hqp 1000 (fun a b : ℚ => a * b + 1) (fun a b => by ring) ⟨⟨![0, 1], ![1, 1]⟩, none⟩ rfl (fun v => by
    simp only [Fin.sum_univ_two, Matrix.cons_val_zero, Matrix.cons_val_one]
    nlinarith [sq_nonneg (v 1), sq_nonneg (v 0 + v 1)]) eps heps _ (of_injective (f := ![1, 0]) (by decide)) (.leaf none) (.inl rfl)
  And.intro h1 h2

end

/-! ### A single point -/

section
variable {X : Type*} [Zero X] {n : ℕ} [NeZero n]

theorem Extremes.avg_one (g : Fin 1 → ℝ) : avg (fun _ => (1 : ℝ)) g = g 0 := by simp [Spec.avg]

/-- Kernel herding for a single point selects the row at which the kernel mean is largest.  If all rows have the same kernel
with themselves (as for every radial kernel), no other row of positive weight is a better coreset of one point. -/
theorem C96_one_herding (big : ℝ) (k : X → X → ℝ) (hk : ∀ a b, k a b = k b a) (unique : Bool) (bs : PyTree (Option ℤ)) (hbs : ValidBlock bs) (pre : Data n X ℝ)
    (hw : ∑ j, pre.weights j ≠ 0) (hpos : ∃ j, 0 < pre.weights j) :
    ∃ (i : Fin n) (st : List ℝ), herdingReduce big k none unique bs 1 pre none [0] = .ok (⟨fun _ => (i : ℤ), fun _ => 1⟩, st) ∧ 0 < pre.weights i ∧
      (∀ j, 0 < pre.weights j → avg pre.weights (fun l => k (pre.data l) (pre.data j)) ≤ avg pre.weights fun l => k (pre.data l) (pre.data i)) ∧
      ((∀ j, 0 < pre.weights j → k (pre.data j) (pre.data j) = k (pre.data i) (pre.data i)) → ∀ j, 0 < pre.weights j → ∃ r r',
        mmdCompute big k pre ⟨fun _ : Fin 1 => pre.data i, fun _ => 1⟩ bs = .ok r ∧ mmdCompute big k pre ⟨fun _ : Fin 1 => pre.data j, fun _ => 1⟩ bs = .ok r' ∧ r ≤ r') := by
  have hn : 0 < n := NeZero.pos n
  have hpos' : PosCount pre.weights 1 := by
    obtain ⟨j, hj⟩ := hpos
    exact Finset.card_pos.2 ⟨j, by simp [hj]⟩
  obtain ⟨f, h1, h2⟩ := C12_reduce_greedy big k hk unique bs hbs 1 one_pos pre hw none (by simp) [0] (by decide) hpos'
  obtain ⟨⟨h3, -⟩, h4, -⟩ := h2 0
  have h5 : ∀ j, 0 < pre.weights j → avg pre.weights (fun l => k (pre.data l) (pre.data j)) ≤ avg pre.weights fun l => k (pre.data l) (pre.data (f 0)) := fun j hj => by
    have := h4 j ⟨hj, fun _ t ht => absurd ht (by simp)⟩
    simpa using this
  have hf : (fun t => ((f t : Fin n) : ℤ)) = fun _ => ((f 0 : Fin n) : ℤ) := funext fun t => by rw [Subsingleton.elim t 0]
  rw [hf] at h1
  refine ⟨f 0, _, h1, h3, h5, fun hd j hj => ⟨_, _, C07_compute big k hn one_pos _ _ hw (by simp) bs hbs, C07_compute big k hn one_pos _ _ hw (by simp) bs hbs, Real.sqrt_le_sqrt (max_le_max le_rfl ?_)⟩⟩
  simp only [mmdSq, avg_one, hd j hj]
  linarith [h5 j hj]

/-- Three rows, the squared exponential kernel and weights one of which is zero meet the hypotheses. -/
example := C96_one_herding 1000 (fun a b : ℝ => Real.exp (-(a - b) ^ 2)) (fun a b => by congr 2; ring) true (.leaf none) (.inl rfl) (⟨![0, 1, 3], ![1, 2, 0]⟩ : Data 3 ℝ ℝ)
  (by simp [Fin.sum_univ_three]; norm_num) ⟨0, by simp⟩

/-- Without that condition the row may be the worst one: for the linear kernel on the line, herding selects the largest of
`1, 1, 1, 9`, with discrepancy 6, although every other row has discrepancy 2. -/
theorem C96_one_worst (big : ℝ) : ∃ st, herdingReduce big (fun a b : ℝ => a * b) none true (.leaf none) 1 (Data.ofArray ![1, 1, 1, 9]) none [0] = .ok (⟨fun _ => 3, fun _ => 1⟩, st) ∧
    mmdCompute big (fun a b : ℝ => a * b) (Data.ofArray ![1, 1, 1, 9]) ⟨fun _ : Fin 1 => 9, fun _ => 1⟩ (.leaf none) = .ok 6 ∧
    mmdCompute big (fun a b : ℝ => a * b) (Data.ofArray ![1, 1, 1, 9]) ⟨fun _ : Fin 1 => 1, fun _ => 1⟩ (.leaf none) = .ok 2 := by
  have hw : ∑ j, (Data.ofArray (K := ℝ) (![1, 1, 1, 9] : Fin 4 → ℝ)).weights j ≠ 0 := by simp [Data.ofArray]
  obtain ⟨i, st, h1, -, h3, -⟩ := C96_one_herding big (fun a b : ℝ => a * b) (fun a b => mul_comm a b) true (.leaf none) (.inl rfl) (Data.ofArray ![1, 1, 1, 9]) hw ⟨0, by simp [Data.ofArray]⟩
  have h4 := h3 3 (by simp [Data.ofArray])
  have hi : i = 3 := by
    fin_cases i <;> first | rfl | (exfalso; simp [Data.ofArray, Spec.avg, Fin.sum_univ_four] at h4; norm_num at h4)
  subst hi
  have hv : ∀ y : ℝ, mmdSq (fun a b : ℝ => a * b) ![1, 1, 1, 9] (fun _ => 1) (fun _ : Fin 1 => y) (fun _ => 1) = (3 - y) ^ 2 := fun y => by
    simp only [mmdSq, avg_one]
    simp [Spec.avg, Fin.sum_univ_four]
    ring
  refine ⟨st, h1, ?_, ?_⟩
  · rw [C07_compute big _ (by norm_num) one_pos _ _ hw (by simp) _ (.inl rfl)]
    simp only [Data.ofArray]
    rw [hv, max_eq_right (by norm_num), Real.sqrt_sq_eq_abs]
    norm_num
  · rw [C07_compute big _ (by norm_num) one_pos _ _ hw (by simp) _ (.inl rfl)]
    simp only [Data.ofArray]
    rw [hv, max_eq_right (by norm_num), Real.sqrt_sq_eq_abs]
    norm_num

/-- Stein thinning for a single point always selects the best row: none of positive weight has a smaller Stein discrepancy. -/
theorem C96_one_stein (big : ℝ) (kp : X → X → ℝ) (unique : Bool) (bs bs' : PyTree (Option ℤ)) (hbs : ValidBlock bs) (hbs' : ValidBlock bs') (pre : Data n X ℝ) (hpos : ∃ j, 0 < pre.weights j) :
    ∃ i : Fin n, steinReduce big kp unique bs 1 pre none [0] = .ok ⟨fun _ => (i : ℤ), fun _ => 1⟩ ∧ 0 < pre.weights i ∧
      ∀ j, 0 < pre.weights j → ∃ r r', ksdCompute big kp ⟨fun _ : Fin 1 => pre.data i, fun _ => 1⟩ bs' none none = .ok r ∧
        ksdCompute big kp ⟨fun _ : Fin 1 => pre.data j, fun _ => 1⟩ bs' none none = .ok r' ∧ r ≤ r' := by
  have hpos' : PosCount pre.weights 1 := by
    obtain ⟨j, hj⟩ := hpos
    exact Finset.card_pos.2 ⟨j, by simp [hj]⟩
  obtain ⟨f, h1, h2, -⟩ := C15_reduce_greedy big kp unique bs hbs 1 one_pos pre none [0] (by decide) hpos'
  have hf : (fun t => ((f t : Fin n) : ℤ)) = fun _ => ((f 0 : Fin n) : ℤ) := funext fun t => by rw [Subsingleton.elim t 0]
  rw [hf] at h1
  obtain ⟨⟨h3, -⟩, h4⟩ := h2 0
  refine ⟨f 0, h1, h3, fun j hj => ⟨_, _, C35_ksd_value big kp one_pos _ (by simp) bs' hbs' none none, C35_ksd_value big kp one_pos _ (by simp) bs' hbs' none none, Real.sqrt_le_sqrt (max_le_max le_rfl ?_)⟩⟩
  have := (h4 j ⟨hj, fun _ t ht => absurd ht (by simp)⟩).1
  simp only [avg_one]
  simpa [regLap, regLogp] using this

example := C96_one_stein 1000 (fun a b : ℝ => a * b + 1) true (.leaf none) (.leaf none) (.inl rfl) (.inl rfl) (⟨![0, 1, 3], ![0, 2, 1]⟩ : Data 3 ℝ ℝ) ⟨1, by simp⟩

end

end Coreax
