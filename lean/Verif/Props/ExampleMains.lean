import Verif.Model.ExampleMains
import Verif.Props.HerdingExamples
import Verif.Props.SettlesExperiment

/-!
# C109: the iterative herding experiment and the video examples with map-reduce, from the data to the results
-/

set_option linter.unusedSectionVars false

namespace Coreax

open Spec HerdingExamples

section
variable {d n : ℕ} [NeZero n]

namespace ExampleMains

theorem reference_eq (l : ℝ) : (KExpr.squaredExponential l (1 / (l * Real.sqrt (2 * Real.pi))) : KExpr d).sem.compute
    = fun a b => 1 / (l * Real.sqrt (2 * Real.pi)) * (basicKernel l : KExpr d).sem.compute a b := by
  funext a b
  show _ * Real.exp _ = _ * (1 * Real.exp _)
  rw [one_mul]

theorem kernels_ok (rows : Fin n → Vec d) (idx : Fin (selectionSize n) → Fin n) (l : ℝ) (hl : Spread rows idx l) :
    getKernels rows idx = .ok (basicKernel l, pounceReference l) := by
  have h1 : (KExpr.squaredExponential l 1 : KExpr d).check = .ok () := basic_check hl.2
  have h2 : (KExpr.squaredExponential l (1 / (l * Real.sqrt (2 * Real.pi))) : KExpr d).check = .ok () := Pounce.reference_ok hl.2
  simp only [getKernels, hl.1, h1, h2]
  rfl

theorem entry_eq {l : ℝ} (hl : 0 < l) (x : Fin n → Vec d) {size : ℕ} (f : Fin size → Fin n) :
    Real.sqrt (max 0 (mmdSq (pounceReference l : KExpr d).sem.compute x (fun _ => 1) (fun t => x (f t)) (fun _ => 1))) = reported l x f fun _ => 1 := by
  have href : (pounceReference l : KExpr d).sem.compute = _ := reference_eq l
  rw [href, mmdSq_smul]
  unfold reported
  rw [gauss_eq, div_mul_eq_mul_div, one_mul, max_eq_right]
  exact div_nonneg (mmdSq_nonneg (C08_psd _ (basic_check hl) trivial) _ _ _ _) (by positivity)

theorem rows_sum (x : Fin n → Vec d) : ∑ j, (Data.ofArray (K := ℝ) x).weights j ≠ 0 := by
  simp only [Data.ofArray, Finset.sum_const, Finset.card_univ, Fintype.card_fin, nsmul_eq_mul, mul_one]
  exact_mod_cast (NeZero.pos n).ne'

variable {Key : Type*}

/-- One run of the experiment. -/
theorem run (o : KeyOps Key n) (hc : ∀ key, SingleChoiceContract fun i p => o.choice (o.foldIn key i) p) (key : Key) {L : ℕ} [NeZero L] (schedule : Option (Fin L → ℝ))
    (hT : ∀ T, schedule = some T → ∀ i, 0 < T i) (big : ℝ) (size : ℕ) (hsize : 0 < size) (hle : size ≤ n) (rows : Fin n → Vec d) (idx : Fin (selectionSize n) → Fin n)
    (ord : List (Fin (size + (size - size)))) (hord : ∀ t, t ∈ ord) (l : ℝ) (hl : Spread rows idx l) :
    ∃ c : ℕ → Fin size → Fin n, (∀ N, Function.Injective (c N)) ∧
      ∀ N, experimentOnData o key schedule big size rows idx ord (N + 1) = .ok (⟨fun t => (c N t : ℤ), fun _ => 1⟩, fun i => reported l rows (c i) fun _ => 1) := by
  obtain ⟨c, st, -, hinj, h⟩ := C74_experiment o key schedule big (basicKernel l : KExpr d).sem.compute (pounceReference l : KExpr d).sem.compute
    (C08_symmetric _ trivial) size hsize (Data.ofArray rows) (rows_sum rows) (fun i => by
      cases schedule with
      | none => exact fun draw hd => by simp [solverDraw, iterationSettings] at hd
      | some T =>
        exact C47_draw_contract _ (hc _) (hT T rfl _) _ fun _ => one_pos) ord hord (posCount_of_pos (fun _ => one_pos) hle)
  refine ⟨c, hinj, fun N => ?_⟩
  simp only [experimentOnData, kernels_ok rows idx l hl, h N]
  congr 2
  funext i
  exact entry_eq hl.2 rows (c i)

theorem linspaceArray_pos (num : ℕ) (i : Fin num) : (0 : ℝ) < linspaceArray 1 100 num i := by
  have hn : (1 : ℝ) ≤ num := by exact_mod_cast (Nat.succ_le_of_lt (Nat.zero_lt_of_lt i.2))
  unfold linspaceArray
  have : (0 : ℝ) ≤ (100 - 1) / ((num : ℝ) - 1) := div_nonneg (by norm_num) (by linarith)
  positivity

theorem schedules_pos (num : ℕ) : ∀ T ∈ experimentSchedules num, ∀ i, 0 < T i := by
  intro T hT i
  simp only [experimentSchedules, List.mem_cons, List.not_mem_nil, or_false] at hT
  rcases hT with rfl | rfl | rfl
  · norm_num
  · norm_num
  · have := linspaceArray_pos num i
    positivity

theorem mapM_ok {α β : Type*} (f : α → Except Err β) (g : α → β) : ∀ l : List α, (∀ a ∈ l, f a = .ok (g a)) → l.mapM f = .ok (l.map g)
  | [], _ => rfl
  | a :: l, h => by
    rw [List.mapM_cons, h a (by simp), mapM_ok f g l fun b hb => h b (by simp [hb])]
    rfl

end ExampleMains

open ExampleMains

variable {Key : Type*}

/-- C109, the experiment of `iterative_probabilistic_kh.py`: whenever the drawn rows have a positive median distance and the coreset is
not larger than the data, all four runs succeed.  Every recorded value, of whatever run, is the reported discrepancy of
some `size` different rows.  The standard run never increases, starts with what a plain `reduce` would report (the dashed line of the
plot) and stays below the bound of herding, and after fewer than `n ^ size` entries it is constant. -/
theorem C109_experiment (o : KeyOps Key n) (hc : ∀ key, SingleChoiceContract fun i p => o.choice (o.foldIn key i) p) (key0 key : Key) (big : ℝ)
    (size : ℕ) (hsize : 0 < size) (hle : size ≤ n) (rows : Fin n → Vec d) (idx : Fin (selectionSize n) → Fin n)
    (ord : List (Fin (size + (size - size)))) (hord : ∀ t, t ∈ ord) (l : ℝ) (hl : Spread rows idx l) (nIter : ℕ) [NeZero nIter] :
    ∃ base probs, experimentMain o key0 key big size rows idx ord nIter = .ok (base, probs) ∧ probs.length = 3 ∧
      (∀ p ∈ base :: probs, ∀ i, ∃ f : Fin size → Fin n, Function.Injective f ∧ p i = reported l rows f fun _ => 1) ∧
      (∀ i j, i ≤ j → base j ≤ base i) ∧
      (∃ (f : Fin size → Fin n) (st : List ℝ), herdingReduce big (basicKernel l : KExpr d).sem.compute none true (.leaf none) size (Data.ofArray rows) none ord
        = .ok (⟨fun t => (f t : ℤ), fun _ => 1⟩, st) ∧ ∀ i : Fin nIter, (i : ℕ) = 0 → base i = reported l rows f fun _ => 1) ∧
      (∀ i, base i ≤ Real.sqrt ((1 - pairMean (fun a b => Real.exp (-(∑ i, (a i - b i) ^ 2) / (2 * l ^ 2))) rows / 2) / (size * (l * Real.sqrt (2 * Real.pi))))) ∧
      ∃ N₀ < n ^ size, ∀ i j : Fin nIter, N₀ ≤ i → N₀ ≤ j → base i = base j := by
  obtain ⟨N, rfl⟩ : ∃ N, nIter = N + 1 := ⟨nIter - 1, by have := NeZero.pos nIter; omega⟩
  obtain ⟨c, hinj, h⟩ := run (L := N + 1) o hc key0 none (fun T hT => by cases hT) big size hsize hle rows idx ord hord l hl
  have hruns : ∀ T : Fin (N + 1) → ℝ, T ∈ experimentSchedules (N + 1) → ∃ r : Data size ℤ ℝ × (Fin (N + 1) → ℝ),
      experimentOnData o key (some T) big size rows idx ord (N + 1) = .ok r ∧ ∀ i, ∃ f : Fin size → Fin n, Function.Injective f ∧ r.2 i = reported l rows f fun _ => 1 := by
    intro T hT
    obtain ⟨c', hinj', h'⟩ := run o hc key (some T) (fun T' hT' => by cases hT'; exact schedules_pos _ T hT) big size hsize hle rows idx ord hord l hl
    exact ⟨_, h' N, fun i => ⟨c' i, hinj' i, rfl⟩⟩
  haveI : Inhabited (Data size ℤ ℝ) := ⟨⟨fun _ => 0, fun _ => 0⟩⟩
  choose! r hr hr' using hruns
  have hdiag : ∀ a : Vec d, (basicKernel l : KExpr d).sem.compute a a = 1 := fun a => by rw [← gauss_eq]; simp
  have href : (pounceReference l : KExpr d).sem.compute = _ := reference_eq l
  obtain ⟨c1, d1, h1, hanti, r1, st1, hr1, hm1⟩ := C74_experiment_standard (L := N + 1) o key0 big (basicKernel l : KExpr d).sem.compute (C08_symmetric _ trivial)
    (s := 1 / (l * Real.sqrt (2 * Real.pi))) (one_div_nonneg.2 (mul_nonneg hl.2.le (Real.sqrt_nonneg _))) size hsize (Data.ofArray rows) (rows_sum rows)
    (fun i j => (hdiag _).trans (hdiag _).symm) ord hord (posCount_of_pos (fun _ => one_pos) hle) N
  have hbase := h N
  simp only [experimentOnData, kernels_ok rows idx l hl, href] at hbase
  have hd : d1 = fun i : Fin (N + 1) => reported l rows (c i) fun _ => 1 := by
    have := h1.symm.trans hbase
    simp only [Except.ok.injEq, Prod.mk.injEq] at this
    exact this.2
  subst hd
  obtain ⟨f, st, hf, -, hb⟩ := run_none big basicKernel size hsize hle rows idx ord hord l hl (basic_check hl.2) (C08_psd _ (basic_check hl.2) trivial) 1
    (fun j => (hdiag _).le)
  have hr1' : r1 = ⟨fun t => (f t : ℤ), fun _ => 1⟩ := by
    have := hr1.symm.trans hf
    simp only [Except.ok.injEq, Prod.mk.injEq] at this
    exact this.1
  have h0 : reported l rows (c 0) (fun _ => 1) = reported l rows f fun _ => 1 := by
    have h2 := compute_reference big hl.2 rows hsize f (fun _ => 1) (by simp; omega)
    rw [href] at h2
    rw [hr1'] at hm1
    have := hm1.symm.trans h2
    simpa using this
  have hbound : reported l rows f (fun _ => 1) ≤ Real.sqrt ((1 - pairMean (fun a b => Real.exp (-(∑ i, (a i - b i) ^ 2) / (2 * l ^ 2))) rows / 2) / (size * (l * Real.sqrt (2 * Real.pi)))) := by
    refine Real.sqrt_le_sqrt ?_
    rw [gauss_eq]
    exact (div_le_div_of_nonneg_right hb (mul_nonneg hl.2.le (Real.sqrt_nonneg _))).trans_eq (div_div _ _ _)
  obtain ⟨f', N₀, v, hN₀, -, hset⟩ := C106_experiment (L := N + 1) o key0 big (basicKernel l : KExpr d).sem.compute
    (fun a b => 1 / (l * Real.sqrt (2 * Real.pi)) * (basicKernel l : KExpr d).sem.compute a b) (C08_symmetric _ trivial) size hsize (Data.ofArray rows)
    (rows_sum rows) ord hord (posCount_of_pos (fun _ => one_pos) hle)
  refine ⟨fun i => reported l rows (c i) fun _ => 1, (experimentSchedules (N + 1)).map fun T => (r T).2, ?_, rfl, ?_, hanti,
    ⟨f, st, hf, fun i hi => ?_⟩, fun i => ?_, N₀, hN₀, fun i j hi hj => ?_⟩
  · unfold experimentMain
    rw [h N]
    simp only
    rw [mapM_ok _ r _ hr]
    simp only [List.map_map]
    rfl
  · intro p hp i
    rcases List.mem_cons.1 hp with rfl | hp
    · exact ⟨c i, hinj i, rfl⟩
    · obtain ⟨T, hT, rfl⟩ := List.mem_map.1 hp
      exact hr' T hT i
  · simp only [hi, h0]
  · exact (hanti 0 i (Fin.zero_le i)).trans (h0.le.trans hbound)
  · obtain ⟨e, he, hv⟩ := hset N (hi.trans (Nat.lt_succ_iff.1 i.2))
    have : e = fun i : Fin (N + 1) => reported l rows (c i) fun _ => 1 := by
      have := he.symm.trans hbase
      simp only [Except.ok.injEq, Prod.mk.injEq] at this
      exact this.2
    subst this
    exact (hv i hi).trans (hv j hj).symm

/-- If the rows drawn for the length scale have a median distance of zero, for example if most rows are equal, the experiment stops with `ValueError` before anything
is selected. -/
theorem C109_experiment_still (o : KeyOps Key n) (key0 key : Key) (big : ℝ) (size : ℕ) (rows : Fin n → Vec d) (idx : Fin (selectionSize n) → Fin n)
    (ord : List (Fin (size + (size - size)))) (h : medianHeuristic (fun t => rows (idx t)) = some 0) (nIter : ℕ) [NeZero nIter] :
    experimentMain o key0 key big size rows idx ord nIter = .error .valueError := by
  have hk : (KExpr.squaredExponential 0 1 : KExpr d).check = .error .valueError := by
    simp only [KExpr.check, checkPos, if_pos (le_refl (0 : ℝ))]
    rfl
  simp only [experimentMain, experimentOnData, getKernels, h, hk]

/-- The temperatures of the experiment: constant, or `1 / (i + 1) ^ 3` in iteration `i` for the hundred iterations of the example. -/
theorem C109_schedules : experimentSchedules 100 = [fun _ => 1 / 1000, fun _ => 1 / 10000, fun i : Fin 100 => 1 / ((i : ℕ) + 1 : ℝ) ^ 3] := by
  unfold experimentSchedules linspaceArray
  congr 1
  · funext _; norm_num
  congr 1
  · funext _; norm_num
  congr 1
  funext i
  have : ((100 : ℝ) - 1) / (((100 : ℕ) : ℝ) - 1) = 1 := by norm_num
  rw [this, mul_one, add_comm]

/-! ### The video examples with map-reduce -/

variable {F : Type}

/-- C109, `pounce_map_reduce.py` and its variant with sliced score matching: for every video of ten to a thousand frames (besides the first) whose drawn rows
have a positive median distance, every way of learning the score that succeeds and every tree, if the partitions of the first round exceed the padding by ten rows
(in particular up to twenty frames), the script ends within about `log₂ (n / 10)` rounds, with ten different frames in the order of time, bars at
exactly these frames and, coloured, at those of the pounce, and the reported discrepancy of these ten. -/
theorem C109_video (big : ℝ) (hn : 10 ≤ n) (h1000 : n ≤ 1000) (learn : ScoreLearner d n) (pca : (Fin n → F) → Fin n → Vec d)
    (tree : TreeIndices (Vec d) ℝ) (ht : TreeContract tree) (video : Fin (n + 1) → F) (idx : Fin (selectionSize n) → Fin n) (l : ℝ)
    (hl : Spread (pca fun i => video i.succ) idx l) (score : Vec d → Vec d)
    (hs : learn l (fun t => pca (fun i => video i.succ) (idx t)) (pca fun i => video i.succ) = .ok score)
    (hpart : 20 < n → 10 + mrPadding n 20 ≤ partRows n 20) :
    ∃ (f : Fin 10 → Fin n) (shown : List F) (y z : Fin (selectionSize n) → ℕ), Function.Injective f ∧
      (∀ fuel, Nat.log 2 ((n - 1) / 10) + 2 ≤ fuel → pounceMapReduceMain big learn pca tree fuel video idx
        = some (.ok (shown, (y, z), reported l (pca fun i => video i.succ) f fun _ => 1))) ∧
      (∃ g : Fin 10 → Fin n, StrictMono g ∧ Set.range g = Set.range f ∧ shown = List.ofFn fun t => video (g t).succ) ∧
      Bars y (fun j => ∃ t, (f t : ℕ) = j) ∧ Bars z (fun j => Action j ∧ ∃ t, (f t : ℕ) = j) := by
  set kernel : KExpr d := .stein (.squaredExponential l 1) score with hker
  set rows := pca fun i => video i.succ with hrows
  have hbase : videoBase big kernel = herdingBase big kernel.sem.compute (.leaf none) 10 := by
    funext m _ x
    simp only [videoBase, herdingBase]
    cases herdingReduce big kernel.sem.compute none true (.leaf none) 10 x none (List.finRange _) <;> rfl
  obtain ⟨res, h1, f, hf, hinj, -, M, hM, e, sub, g, -, -, -, he, hb, -⟩ := C22_valid 20 (by norm_num) (by norm_num) (herdingBase big kernel.sem.compute (.leaf none) 10)
    (C22_herding_base big kernel.sem.compute (.leaf none) (Or.inl rfl) 10 (by norm_num)).1 tree ht (Data.ofArray (K := ℝ) rows) hn (fun _ => one_pos)
    (fun h q => C22_enough_rows 20 tree ht _ (fun _ => one_pos) (hpart h) q)
  have hle : 10 ≤ M := by
    by_contra hc
    rw [(C22_herding_base big kernel.sem.compute (.leaf none) (Or.inl rfl) 10 (by norm_num)).2 M e (by omega)] at hb
    cases hb
  have hwt : res.weights = fun _ => 1 := by
    obtain ⟨f', st, h2, -⟩ := C11_reduce_valid big kernel.sem.compute none true (.leaf none) (Or.inl rfl) 10 (by norm_num) e (fun _ h => by cases h) none
      (List.finRange _) List.mem_finRange (posCount_of_pos he hle)
    simp only [herdingBase, h2, Except.ok.injEq, Data.mk.injEq] at hb
    exact hb.2.symm
  have hres : res = ⟨fun t => (f t : ℤ), fun _ => 1⟩ := by
    rw [← hwt, ← funext hf]
  have hlt : ∀ t, (f t : ℕ) < selectionSize n := fun t => by unfold selectionSize; omega
  obtain ⟨shown, y, z, ho, -, hy, hz⟩ := (C84_outputs (dropFirst video) (selectionSize n) f).1 hlt
  obtain ⟨hg, -⟩ := C84_distinct (dropFirst video) (selectionSize n) f hinj shown y z ho
  refine ⟨f, shown, y, z, hinj, fun fuel hfuel => ?_, hg, hy, hz⟩
  have hd : pca (dropFirst video) = rows := rfl
  have hcheck : (KExpr.squaredExponential l 1 : KExpr d).check = .ok () := basic_check hl.2
  have hrun := h1 fuel hfuel
  rw [← hbase, hres] at hrun
  have hmmd := compute_reference big hl.2 rows (by norm_num : 0 < 10) f (fun _ => 1) (by simp)
  unfold pounceMapReduceMain
  simp only [hd, hl.1, hs, hcheck, ← hker, hrun, Pounce.reference_ok hl.2, hmmd, ho, liftErr, bind, Except.bind]

/-- Both ways of learning the score succeed for a positive length scale. -/
theorem C109_learners (big : ℝ) {l : ℝ} (hl : 0 < l) (sel : Fin (selectionSize n) → Vec d) (rows : Fin n → Vec d) {State Params : Type} (T : Trainer d State Params)
    (z : Fin 64 → Vec d) (init : State) (v : Fin n → Fin 1 → Vec d) (draws : Fin 100 → Fin 64 → ℤ) :
    (∃ score, kdeLearner big n l sel rows = .ok score) ∧ ∃ score, ssmLearner T z init v draws l sel rows = .ok score := by
  refine ⟨?_, _, rfl⟩
  have hpi : 0 < Real.sqrt (2 * Real.pi) := Real.sqrt_pos.2 (by positivity)
  have hk : (kdeKernel l : KExpr d).check = .ok () := by
    have : 0 < 1 / (Real.sqrt (2 * Real.pi) * l) := by positivity
    simp only [kdeKernel, KExpr.check, checkPos, if_neg (not_le.2 hl), if_neg (not_le.2 this)]
    rfl
  simp only [kdeLearner, kdeMatch, hk]
  exact ⟨_, rfl⟩

/-- A video of fewer than ten frames (besides the first) is refused, in one round. -/
theorem C109_video_short (big : ℝ) (hn : n < 10) (learn : ScoreLearner d n) (pca : (Fin n → F) → Fin n → Vec d)
    (tree : TreeIndices (Vec d) ℝ) (video : Fin (n + 1) → F) (idx : Fin (selectionSize n) → Fin n) (fuel : ℕ) :
    ∃ e, pounceMapReduceMain big learn pca tree (fuel + 1) video idx = some (.error (.library e)) := by
  unfold pounceMapReduceMain
  cases h1 : medianHeuristic (fun t => pca (dropFirst video) (idx t)) with
  | none => exact ⟨.valueError, by simp only [h1]⟩
  | some l =>
    cases h2 : learn l (fun t => pca (dropFirst video) (idx t)) (pca (dropFirst video)) with
    | error e => exact ⟨e, by simp only [h1, h2]⟩
    | ok score =>
      cases h3 : (KExpr.squaredExponential l 1 : KExpr d).check with
      | error e => exact ⟨e, by simp only [h1, h2, h3]⟩
      | ok u =>
        have h : videoBase big (.stein (.squaredExponential l 1) score : KExpr d) n (Data.ofArray (pca (dropFirst video))) = .error .valueError := by
          unfold videoBase
          rw [C11_reduce_too_large big _ none true (.leaf none) 10 hn]
        refine ⟨.valueError, ?_⟩
        simp only [h1, h2, h3, mrRun, if_pos (show n ≤ 20 by omega), h]

end

/-! ### The hypotheses can be met -/

/-- Points on a line. -/
theorem ExampleMains.spread_line {n : ℕ} [NeZero n] (hn : 2 ≤ n) (idx : Fin (selectionSize n) → Fin n) (hidx : Function.Injective idx) :
    ∃ l, Spread (fun (i : Fin n) (_ : Fin 1) => ((i : ℕ) : ℝ)) idx l :=
  C84_spread hn _ (fun i j h => Fin.ext (by have := congrFun h 0; simpa using this)) idx hidx

example : ∃ l base probs, experimentMain (simpleKeys 3) 0 83569 1000 2 (fun (i : Fin 3) (_ : Fin 1) => ((i : ℕ) : ℝ)) id [0, 1] 100 = .ok (base, probs) ∧ probs.length = 3 ∧
    ∀ i, base i ≤ Real.sqrt ((1 - pairMean (fun a b : Vec 1 => Real.exp (-(∑ i, (a i - b i) ^ 2) / (2 * l ^ 2))) (fun (i : Fin 3) _ => ((i : ℕ) : ℝ)) / 2) / (2 * (l * Real.sqrt (2 * Real.pi)))) := by
  obtain ⟨l, hl⟩ := ExampleMains.spread_line (n := 3) (by norm_num) id Function.injective_id
  obtain ⟨base, probs, h1, h2, -, -, -, h3, -⟩ := C109_experiment (simpleKeys 3) (fun key i p h0 h1 => firstPositive_contract 0 p h0 h1) 0 83569 1000 2 (by norm_num) (by norm_num) _ _
    [0, 1] (by decide) l hl 100
  exact ⟨l, base, probs, h1, h2, by exact_mod_cast h3⟩

example : experimentMain (simpleKeys 3) 0 83569 1000 2 (fun (_ : Fin 3) (_ : Fin 1) => (7 : ℝ)) id [0, 1] 100 = .error .valueError :=
  C109_experiment_still _ _ _ _ _ _ _ _ (median_still (by decide) _ fun _ _ => rfl) 100

/-- Eighty frames: four leaves of twenty rows and no padding. -/
example (learn : ScoreLearner 1 80) (hlearn : ∀ l s x, 0 < l → ∃ score, learn l s x = .ok score) :
    ∃ shown y z mmd, pounceMapReduceMain 1000 learn (fun raw i _ => raw i) (rowTree _ _) 4 (fun i : Fin 81 => ((i : ℕ) : ℝ)) id = some (.ok (shown, (y, z), mmd)) ∧
      shown.length = 10 := by
  obtain ⟨l, hl⟩ := C84_spread (n := 80) (by norm_num) (fun (i : Fin 80) (_ : Fin 1) => (((i.succ : Fin 81) : ℕ) : ℝ))
    (fun i j h => Fin.ext (by have := congrFun h 0; simpa using this)) id Function.injective_id
  obtain ⟨score, hs⟩ := hlearn l (fun t => fun _ => (((Fin.succ (id t : Fin 80) : Fin 81) : ℕ) : ℝ)) (fun i _ => ((i.succ : ℕ) : ℝ)) hl.2
  obtain ⟨f, shown, y, z, -, h, ⟨g, -, -, rfl⟩, -⟩ := C109_video 1000 (by norm_num) (by norm_num) learn (fun raw i _ => raw i) (rowTree _ _) rowTree_contract
    (fun i : Fin 81 => ((i : ℕ) : ℝ)) id l hl score hs (fun _ => by decide +kernel)
  exact ⟨_, y, z, _, h 4 (by decide +kernel), by simp⟩

example (T : Trainer 1 ℕ ℕ) := C109_learners (n := 3) 1000 (zero_lt_two' ℝ) (fun t _ => ((t : ℕ) : ℝ)) (fun i _ => ((i : ℕ) : ℝ)) T (fun _ _ => 0) 0 (fun _ _ _ => 1) (fun _ _ => 2)

example (learn : ScoreLearner 1 9) := C109_video_short 1000 (by norm_num) learn (fun raw i _ => raw i) (rowTree _ _) (fun i : Fin 10 => ((i : ℕ) : ℝ)) id 0

end Coreax
