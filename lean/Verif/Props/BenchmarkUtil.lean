import Verif.Model.BenchmarkUtil
import Verif.Props.BlobsBenchmark
import Verif.Props.HerdingRate
import Verif.Props.MapReduceRate
import Verif.Props.Softmax

/-!
# C67: the solvers of the benchmarks (`coreax/benchmark_util.py`)
-/

set_option linter.unusedSectionVars false

namespace Coreax

open Spec

/-! ### Construction -/

/-- What the documentation promises for each name: the class, and whether `MapReduce` is used when there is a leaf size. -/
def Spec.benchmarkTable : List (String × Method × Bool) :=
  [("Random Sample", .randomSample, false), ("RP Cholesky", .rpCholesky, false), ("Kernel Herding", .kernelHerding, true),
   ("Stein Thinning", .steinThinning, true), ("Kernel Thinning", .kernelThinning, true), ("Compress++", .compressPlusPlus, false),
   ("Iterative Probabilistic Herding (constant)", .iterativeHerding, true), ("Iterative Herding", .iterativeHerding, true),
   ("Iterative Probabilistic Herding (cubic)", .iterativeHerding, true)]

theorem constructBase_ok (size : ℤ) (config : ℕ → BaseConfig) (b : BaseConfig) : constructBase size config = .ok b ↔ 0 < size ∧ b = config size.toNat := by
  unfold constructBase
  split_ifs with h
  · simp only [reduceCtorEq, false_iff]; omega
  · simp only [Except.ok.injEq]; constructor
    · rintro rfl; exact ⟨by omega, rfl⟩
    · rintro ⟨-, rfl⟩; rfl

theorem constructBase_error (size : ℤ) (config : ℕ → BaseConfig) (h : size ≤ 0) : constructBase size config = .error .valueError := if_pos h

/-- What the construction of one of the solvers does. -/
theorem wrapLeaf_spec (leaf : Option ℤ) (size : ℤ) (config : ℕ → BaseConfig) (hc : ∀ s, (config s).size = s) :
    (0 < size → (∀ l, leaf = some l → size < l) → wrapLeaf leaf (constructBase size config) = .ok ⟨config size.toNat, leaf⟩) ∧
    (¬ (0 < size ∧ ∀ l, leaf = some l → size < l) → wrapLeaf leaf (constructBase size config) = .error .valueError) := by
  constructor
  · intro h1 h2
    rw [(constructBase_ok size config _).2 ⟨h1, rfl⟩]
    cases leaf with
    | none => rfl
    | some l =>
      have := h2 l rfl
      have hs : ((config size.toNat).size : ℤ) = size := by rw [hc]; omega
      simp only [wrapLeaf, mrCheckInit, hs, if_neg (not_le.2 this)]
  · intro h
    by_cases h1 : 0 < size
    · rw [(constructBase_ok size config _).2 ⟨h1, rfl⟩]
      cases leaf with
      | none => exact absurd ⟨h1, by simp⟩ h
      | some l =>
        have hs : ((config size.toNat).size : ℤ) = size := by rw [hc]; omega
        have hl : l ≤ size := by
          by_contra hl
          exact h ⟨h1, by rintro _ ⟨⟩; omega⟩
        simp only [wrapLeaf, mrCheckInit, hs, if_pos hl]
    · rw [constructBase_error size config (by omega)]; rfl

theorem unwrapped_spec (size : ℤ) (config : ℕ → BaseConfig) :
    (0 < size → unwrapped (constructBase size config) = .ok ⟨config size.toNat, none⟩) ∧
    (¬ 0 < size → unwrapped (constructBase size config) = .error .valueError) := by
  constructor
  · intro h; rw [(constructBase_ok size config _).2 ⟨h, rfl⟩]; rfl
  · intro h; rw [constructBase_error size config (by omega)]; rfl

/-- C67: the dictionary has the nine names in the order of the table, and a function constructs a solver exactly for a positive size that is less than the leaf size, if there is one and the class
uses it; otherwise it raises `ValueError`. The solver has the class, the size and the leaf size asked for. -/
theorem C67_construct (n : ℕ) (g : ℤ) (leaf : Option ℤ) :
    (solverFactories n g leaf).map Prod.fst = benchmarkTable.map Prod.fst ∧ (benchmarkTable.map Prod.fst).Nodup ∧
    ∀ name method mapped make, (name, method, mapped) ∈ benchmarkTable → (name, make) ∈ solverFactories n g leaf → ∀ size : ℤ,
      (0 < size → (mapped = true → ∀ l, leaf = some l → size < l) → ∃ s, make size = .ok s ∧ s.base.method = method ∧ (s.base.size : ℤ) = size ∧
        s.leaf = if mapped then leaf else none) ∧
      (¬ (0 < size ∧ (mapped = true → ∀ l, leaf = some l → size < l)) → make size = .error .valueError) := by
  refine ⟨rfl, by decide +kernel, ?_⟩
  intro name method mapped make h1 h2 size
  have hw : ∀ (m : Method) (config : ℕ → BaseConfig), (∀ s, (config s).size = s ∧ (config s).method = m) →
      (0 < size → (true = true → ∀ l, leaf = some l → size < l) → ∃ s, wrapLeaf leaf (constructBase size config) = .ok s ∧ s.base.method = m ∧ (s.base.size : ℤ) = size ∧
        s.leaf = if true = true then leaf else none) ∧
      (¬ (0 < size ∧ (true = true → ∀ l, leaf = some l → size < l)) → wrapLeaf leaf (constructBase size config) = .error .valueError) := by
    intro m config hc
    obtain ⟨a, b⟩ := wrapLeaf_spec leaf size config fun s => (hc s).1
    refine ⟨fun h3 h4 => ⟨_, a h3 (h4 rfl), (hc _).2, ?_, rfl⟩, fun h => b fun hh => h ⟨hh.1, fun _ => hh.2⟩⟩
    show ((config size.toNat).size : ℤ) = size
    rw [(hc _).1]; omega
  have hu : ∀ (m : Method) (config : ℕ → BaseConfig), (∀ s, (config s).size = s ∧ (config s).method = m) →
      (0 < size → (false = true → ∀ l, leaf = some l → size < l) → ∃ s, unwrapped (constructBase size config) = .ok s ∧ s.base.method = m ∧ (s.base.size : ℤ) = size ∧
        s.leaf = if false = true then leaf else none) ∧
      (¬ (0 < size ∧ (false = true → ∀ l, leaf = some l → size < l)) → unwrapped (constructBase size config) = .error .valueError) := by
    intro m config hc
    obtain ⟨a, b⟩ := unwrapped_spec size config
    refine ⟨fun h3 _ => ⟨_, a h3, (hc _).2, ?_, rfl⟩, fun h => b fun hh => h ⟨hh, fun h => by cases h⟩⟩
    show ((config size.toNat).size : ℤ) = size
    rw [(hc _).1]; omega
  simp only [benchmarkTable, List.mem_cons, List.not_mem_nil, or_false, Prod.mk.injEq] at h1
  simp only [solverFactories, List.mem_cons, List.not_mem_nil, or_false, Prod.mk.injEq] at h2
  rcases h1 with ⟨rfl, rfl, rfl⟩ | ⟨rfl, rfl, rfl⟩ | ⟨rfl, rfl, rfl⟩ | ⟨rfl, rfl, rfl⟩ | ⟨rfl, rfl, rfl⟩ | ⟨rfl, rfl, rfl⟩ | ⟨rfl, rfl, rfl⟩ | ⟨rfl, rfl, rfl⟩ | ⟨rfl, rfl, rfl⟩
  all_goals
    simp only [String.reduceEq, false_and, or_false, false_or, true_and] at h2
    subst h2
  · exact hu _ _ fun _ => ⟨rfl, rfl⟩
  · exact hu _ _ fun _ => ⟨rfl, rfl⟩
  · exact hw _ _ fun _ => ⟨rfl, rfl⟩
  · exact hw _ _ fun _ => ⟨rfl, rfl⟩
  · exact hw _ _ fun _ => ⟨rfl, rfl⟩
  · exact hu _ _ fun _ => ⟨rfl, rfl⟩
  · exact hw _ _ fun _ => ⟨rfl, rfl⟩
  · exact hw _ _ fun _ => ⟨rfl, rfl⟩
  · exact hw _ _ fun _ => ⟨rfl, rfl⟩

/-- What each function constructs. -/
theorem factory_base (n : ℕ) (g : ℤ) (leaf : Option ℤ) (name : String) (make : ℤ → Except Err BenchSolver) (h : (name, make) ∈ solverFactories n g leaf) (size : ℤ) (s : BenchSolver)
    (hs : make size = .ok s) :
    0 < size ∧ (∀ l, s.leaf = some l → leaf = some l ∧ size < l) ∧ (s.base = { method := .randomSample, size := size.toNat } ∨ s.base = { method := .rpCholesky, size := size.toNat } ∨
      s.base = { method := .kernelHerding, size := size.toNat } ∨ s.base = { method := .steinThinning, size := size.toNat } ∨
      s.base = { method := .kernelThinning, size := size.toNat, delta := some (calculateDelta n) } ∨
      s.base = { method := .compressPlusPlus, size := size.toNat, delta := some (calculateDelta n), g := some g } ∨
      s.base = { method := .iterativeHerding, size := size.toNat, iter := some ⟨5, none, true, 1 / 1000⟩ } ∨
      s.base = { method := .iterativeHerding, size := size.toNat, iter := some ⟨5, none, false, 1 / 1000⟩ } ∨
      s.base = { method := .iterativeHerding, size := size.toNat, iter := some ⟨10, some cubicSchedule, true, 1 / 1000⟩ }) := by
  have hw : ∀ (config : ℕ → BaseConfig), (∀ s, (config s).size = s) → wrapLeaf leaf (constructBase size config) = .ok s →
      0 < size ∧ (∀ l, s.leaf = some l → leaf = some l ∧ size < l) ∧ s.base = config size.toNat := by
    intro config hc hok
    obtain ⟨a, b⟩ := wrapLeaf_spec leaf size config hc
    by_cases hh : 0 < size ∧ ∀ l, leaf = some l → size < l
    · rw [a hh.1 hh.2] at hok
      cases hok
      exact ⟨hh.1, fun l hl => ⟨hl, hh.2 l hl⟩, rfl⟩
    · rw [b hh] at hok; cases hok
  have hu : ∀ (config : ℕ → BaseConfig), unwrapped (constructBase size config) = .ok s →
      0 < size ∧ (∀ l, s.leaf = some l → leaf = some l ∧ size < l) ∧ s.base = config size.toNat := by
    intro config hok
    obtain ⟨a, b⟩ := unwrapped_spec size config
    by_cases hh : 0 < size
    · rw [a hh] at hok
      cases hok
      exact ⟨hh, fun l hl => (nomatch hl), rfl⟩
    · rw [b hh] at hok; cases hok
  simp only [solverFactories, List.mem_cons, List.not_mem_nil, or_false, Prod.mk.injEq] at h
  rcases h with ⟨-, rfl⟩ | ⟨-, rfl⟩ | ⟨-, rfl⟩ | ⟨-, rfl⟩ | ⟨-, rfl⟩ | ⟨-, rfl⟩ | ⟨-, rfl⟩ | ⟨-, rfl⟩ | ⟨-, rfl⟩
  · obtain ⟨a, b, c⟩ := hu _ hs; exact ⟨a, b, .inl c⟩
  · obtain ⟨a, b, c⟩ := hu _ hs; exact ⟨a, b, .inr (.inl c)⟩
  · obtain ⟨a, b, c⟩ := hw _ (fun _ => rfl) hs; exact ⟨a, b, .inr (.inr (.inl c))⟩
  · obtain ⟨a, b, c⟩ := hw _ (fun _ => rfl) hs; exact ⟨a, b, .inr (.inr (.inr (.inl c)))⟩
  · obtain ⟨a, b, c⟩ := hw _ (fun _ => rfl) hs; exact ⟨a, b, .inr (.inr (.inr (.inr (.inl c))))⟩
  · obtain ⟨a, b, c⟩ := hu _ hs; exact ⟨a, b, .inr (.inr (.inr (.inr (.inr (.inl c)))))⟩
  · obtain ⟨a, b, c⟩ := hw _ (fun _ => rfl) hs; exact ⟨a, b, .inr (.inr (.inr (.inr (.inr (.inr (.inl c))))))⟩
  · obtain ⟨a, b, c⟩ := hw _ (fun _ => rfl) hs; exact ⟨a, b, .inr (.inr (.inr (.inr (.inr (.inr (.inr (.inl c)))))))⟩
  · obtain ⟨a, b, c⟩ := hw _ (fun _ => rfl) hs; exact ⟨a, b, .inr (.inr (.inr (.inr (.inr (.inr (.inr (.inr c)))))))⟩

/-- C67: exactly kernel thinning and Compress++ have a failure probability; it is that of the whole data, also inside `MapReduce`, and the constant of the thresholds is a number except for data with
three rows. -/
theorem C67_failure_probability (n : ℕ) (hn : 1 ≤ n) (g : ℤ) (leaf : Option ℤ) (name : String) (make : ℤ → Except Err BenchSolver)
    (h : (name, make) ∈ solverFactories n g leaf) (size : ℤ) (s : BenchSolver) (hs : make size = .ok s) :
    ((∃ δ, s.base.delta = some δ) ↔ s.base.method = .kernelThinning ∨ s.base.method = .compressPlusPlus) ∧
    ∀ δ, s.base.delta = some δ → 0 < δ ∧ ((∃ c, 0 ≤ c ∧ ktConstant δ = .fin c) ↔ n ≠ 3) := by
  obtain ⟨-, -, hb⟩ := factory_base n g leaf name make h size s hs
  obtain ⟨hpos, hle⟩ := C44_delta_range n hn
  have key : (∃ c, 0 ≤ c ∧ ktConstant (calculateDelta n) = .fin c) ↔ n ≠ 3 := by
    rw [C59_constant_number]
    constructor
    · rintro ⟨-, h2⟩ rfl
      exact absurd h2 (not_le.2 C44_delta_three)
    · intro h3
      exact ⟨hpos, by linarith [hle.2 h3]⟩
  rcases hb with e | e | e | e | e | e | e | e | e <;> rw [e] <;> refine ⟨by simp, fun δ hδ => ?_⟩ <;> cases hδ <;> exact ⟨hpos, key⟩

example := C67_failure_probability 1000 (by norm_num) 5 none "Kernel Thinning" (getThinningSolver 1000 none) (by simp [solverFactories]) 25 _ rfl

/-- C67: only Compress++ gets the oversampling factor, and it is the one given. -/
theorem C67_oversampling (n : ℕ) (g : ℤ) (leaf : Option ℤ) (name : String) (make : ℤ → Except Err BenchSolver)
    (h : (name, make) ∈ solverFactories n g leaf) (size : ℤ) (s : BenchSolver) (hs : make size = .ok s) :
    s.base.g = if s.base.method = .compressPlusPlus then some g else none := by
  obtain ⟨-, -, hb⟩ := factory_base n g leaf name make h size s hs
  rcases hb with e | e | e | e | e | e | e | e | e <;> rw [e] <;> simp

example := C67_oversampling 1000 5 (some 100) "Compress++" (getCompressSolver 1000 5) (by simp [solverFactories]) 25 _ rfl

/-- The schedule in closed form. -/
theorem cubicSchedule_eq : cubicSchedule = (List.range 10).map fun i : ℕ => 1 / (10 * ((i : ℝ) + 1)) ^ 3 := by
  unfold cubicSchedule linspace
  rw [List.map_map]
  refine List.map_congr_left fun i _ => ?_
  simp only [Function.comp]
  norm_num
  ring_nf

/-- C67: the temperatures of iterative herding: `1 / 1000` in each of five iterations, or `1 / (10 (i + 1))³` in iteration `i` of ten: a schedule of just the right length, starting at the
temperature of the other solver and decreasing; the deterministic solver makes no draws. -/
theorem C67_temperatures (n : ℕ) (g : ℤ) (leaf : Option ℤ) (name : String) (make : ℤ → Except Err BenchSolver)
    (h : (name, make) ∈ solverFactories n g leaf) (size : ℤ) (s : BenchSolver) (hs : make size = .ok s) (p : IterParams) (hp : s.base.iter = some p) :
    s.base.method = .iterativeHerding ∧ (∀ l, p.schedule = some l → l.length = p.iterations) ∧
    ((p.iterations = 5 ∧ p.probabilistic = false ∧ ∀ (m : ℕ) (choice : ℕ → SingleChoice m) i, iterativeDraw p choice i = none) ∨
     (p.iterations = 5 ∧ ∀ (m : ℕ) (choice : ℕ → SingleChoice m) i, iterativeDraw p choice i = some (softmaxDraw (choice i) (1 / 1000))) ∨
     (p.iterations = 10 ∧ ∀ (m : ℕ) (choice : ℕ → SingleChoice m) i, i < 10 → iterativeDraw p choice i = some (softmaxDraw (choice i) (1 / (10 * ((i : ℝ) + 1)) ^ 3)))) := by
  obtain ⟨-, -, hb⟩ := factory_base n g leaf name make h size s hs
  rcases hb with e | e | e | e | e | e | e | e | e <;> rw [e] at hp ⊢ <;> simp only [reduceCtorEq, Option.some.injEq] at hp <;> subst hp
  · exact ⟨rfl, by simp, .inr (.inl ⟨rfl, fun _ _ _ => rfl⟩)⟩
  · exact ⟨rfl, by simp, .inl ⟨rfl, rfl, fun _ _ _ => rfl⟩⟩
  · refine ⟨rfl, ?_, .inr (.inr ⟨rfl, fun m choice i hi => ?_⟩)⟩
    · intro l hl
      cases hl
      simp [cubicSchedule_eq]
    · simp only [iterativeDraw, if_true, Option.some.injEq]
      congr 1
      rw [cubicSchedule_eq, List.length_map, List.length_range, min_eq_left (by omega), List.getD_eq_getElem?_getD, List.getElem?_map,
        List.getElem?_range hi]
      rfl

example := C67_temperatures 1000 5 none "Iterative Probabilistic Herding (cubic)" (getCubicIterativeHerdingSolver none) (by simp [solverFactories]) 25 _ rfl _ rfl

/-- All temperatures are positive. -/
theorem iterativeDraw_temperature {s : BenchSolver} {n : ℕ} {g : ℤ} {leaf : Option ℤ} {name : String} {make : ℤ → Except Err BenchSolver}
    (h : (name, make) ∈ solverFactories n g leaf) {size : ℤ} (hs : make size = .ok s) {p : IterParams} (hp : s.base.iter = some p) {m : ℕ} (choice : ℕ → SingleChoice m) (i : ℕ)
    (hi : i < p.iterations) : iterativeDraw p choice i = none ∨ ∃ T, 0 < T ∧ iterativeDraw p choice i = some (softmaxDraw (choice i) T) := by
  obtain ⟨-, -, h1 | h1 | h1⟩ := C67_temperatures n g leaf name make h size s hs p hp
  · exact .inl (h1.2.2 m choice i)
  · exact .inr ⟨_, by norm_num, h1.2 m choice i⟩
  · exact .inr ⟨_, by positivity, h1.2 m choice i (by omega)⟩

/-! ### The kernel -/

/-- C67: the construction fails exactly if more than half of the pairs of drawn rows coincide, with `ValueError`; the length scale is NaN exactly for a single row (or none). -/
theorem C67_kernel {n d : ℕ} (idx : Fin (min n 300) → Fin n) (x : Fin n → Vec d) (g : ℤ) (leaf : Option ℤ) :
    (∀ e, initialiseSolvers idx x g leaf = .error e ↔
      e = .valueError ∧ 2 ≤ n ∧ min n 300 * (min n 300 - 1) < 2 * pairCount (fun t => x (idx t)) (fun a b => a = b)) ∧
    (∀ L, initialiseSolvers idx x g leaf = .ok (none, L) ↔ n < 2 ∧ L = solverFactories n g leaf) ∧
    (∀ k L, initialiseSolvers idx x g leaf = .ok (some k, L) → L = solverFactories n g leaf ∧ ∃ l, 0 < l ∧ k = .squaredExponential l 1 ∧
      ∃ m, IsMidMedianDistance (fun t => x (idx t)) m ∧ l = Real.sqrt (m / 2)) := by
  have hmin : min n 300 < 2 ↔ n < 2 := by omega
  rcases hm : medianHeuristic (fun t => x (idx t)) with _ | v
  · have hn := (C43_nan_iff _).1 hm
    have e : initialiseSolvers idx x g leaf = .ok (none, solverFactories n g leaf) := by
      unfold initialiseSolvers benchKernel
      simp only [hm]
    rw [e]
    refine ⟨fun e => ?_, fun L => ?_, fun k L h => by cases h⟩
    · simp only [reduceCtorEq, false_iff]
      rintro ⟨-, h, -⟩
      omega
    · simp only [Except.ok.injEq, Prod.mk.injEq, true_and]
      exact ⟨fun h => ⟨by omega, h.symm⟩, fun h => h.2.symm⟩
  · have hn : 2 ≤ n := by
      by_contra hc
      rw [(C43_nan_iff _).2 (by omega)] at hm
      cases hm
    have hk := C43_kernel_construction (fun t => x (idx t)) v hm
    rcases hc : (KExpr.squaredExponential v 1 : KExpr d).check with e' | u
    · have he' : e' = .valueError := by
        by_cases hv : v ≤ 0
        · simp only [KExpr.check, checkPos, if_pos hv, Bind.bind, Except.bind] at hc
          injection hc with hc; exact hc.symm
        · norm_num [KExpr.check, checkPos, if_neg hv, Bind.bind, Except.bind] at hc
          cases hc
      subst he'
      have e : initialiseSolvers idx x g leaf = .error .valueError := by
        unfold initialiseSolvers benchKernel
        simp only [hm, hc]
      rw [e]
      refine ⟨fun e => ?_, fun L => ?_, fun k L h => by cases h⟩
      · simp only [Except.error.injEq]
        exact ⟨fun h => ⟨h.symm, hn, hk.1 hc⟩, fun h => h.1.symm⟩
      · simp only [reduceCtorEq, false_iff]
        rintro ⟨h, -⟩
        omega
    · have e : initialiseSolvers idx x g leaf = .ok (some (.squaredExponential v 1), solverFactories n g leaf) := by
        unfold initialiseSolvers benchKernel
        simp only [hm, hc]
      rw [e]
      refine ⟨fun e => ?_, fun L => ?_, fun k L h => ?_⟩
      · simp only [reduceCtorEq, false_iff]
        rintro ⟨-, -, h⟩
        rw [hk.2 h] at hc
        cases hc
      · simp only [Except.ok.injEq, Prod.mk.injEq, reduceCtorEq, false_and, false_iff]
        rintro ⟨h, -⟩
        omega
      · simp only [Except.ok.injEq, Prod.mk.injEq, Option.some.injEq] at h
        obtain ⟨rfl, rfl⟩ := h
        obtain ⟨m, h1, h2⟩ := C43_is_median (fun t => x (idx t)) (by omega : 2 ≤ min n 300)
        rw [hm] at h2
        refine ⟨rfl, v, ?_, rfl, m, h1, by injection h2⟩
        by_contra hv
        simp [KExpr.check, checkPos, if_pos (not_lt.1 hv), Bind.bind, Except.bind] at hc

/-- C67: for up to 300 rows the draw does not matter. -/
theorem C67_kernel_draw {n d : ℕ} (hn : n ≤ 300) (idx idx' : Fin (min n 300) → Fin n) (hi : Function.Injective idx) (hi' : Function.Injective idx') (x : Fin n → Vec d) (g : ℤ)
    (leaf : Option ℤ) : initialiseSolvers idx x g leaf = initialiseSolvers idx' x g leaf := by
  have hc : Fintype.card (Fin (min n 300)) = Fintype.card (Fin n) := by simp [hn]
  let e := Equiv.ofBijective idx ((Fintype.bijective_iff_injective_and_card idx).2 ⟨hi, hc⟩)
  let e' := Equiv.ofBijective idx' ((Fintype.bijective_iff_injective_and_card idx').2 ⟨hi', hc⟩)
  have h := C43_permutation (fun t => x (idx' t)) (e.trans e'.symm)
  have h2 : ((fun t => x (idx' t)) ∘ (e.trans e'.symm)) = fun t => x (idx t) := by
    funext t
    have : idx' (e'.symm (e t)) = e t := e'.apply_symm_apply (e t)
    simp only [Function.comp, Equiv.trans_apply, this]
    rfl
  rw [h2] at h
  unfold initialiseSolvers benchKernel
  rw [h]

example (x : Fin 3 → Vec 2) : initialiseSolvers (n := 3) ![0, 1, 2] x 5 none = initialiseSolvers (n := 3) ![2, 0, 1] x 5 none :=
  C67_kernel_draw (n := 3) (by norm_num) ![0, 1, 2] ![2, 0, 1] (by decide) (by decide) x 5 none

/-! ### Reductions -/

section Reduce
variable {X : Type} [Zero X]

/-- C67: with a leaf size of at least twice the coreset size the reduction ends, whatever the base solver does; with a smaller one it never returns a coreset of data that exceed a leaf, although the
constructor accepts it. -/
theorem C67_terminates (n : ℕ) (g : ℤ) (leaf : Option ℤ) (name : String) (make : ℤ → Except Err BenchSolver) (h : (name, make) ∈ solverFactories n g leaf) (size : ℤ) (s : BenchSolver)
    (hs : make size = .ok s) [NeZero s.base.size] (l : ℤ) (hl : s.leaf = some l) (solve : BaseConfig → ∀ size, BaseSolver X ℝ size) (tree : TreeIndices X ℝ) {m : ℕ} [NeZero m]
    (d : Data m X ℝ) :
    (2 * size ≤ l → ∃ r, ∀ fuel, Nat.log 2 ((m - 1) / (l.toNat / 2)) + 2 ≤ fuel → benchReduce solve tree fuel s d = some r) ∧
    (l / 2 < size → l < m → ∀ fuel c, benchReduce solve tree fuel s d ≠ some (.ok c)) := by
  obtain ⟨h1, h2, h3⟩ := factory_base n g leaf name make h size s hs
  have hsz : s.base.size = size.toNat := by
    rcases h3 with e | e | e | e | e | e | e | e | e <;> rw [e]
  have hlt := (h2 l hl).2
  unfold benchReduce
  simp only [hl]
  constructor
  · intro h4
    exact C23_terminates l.toNat (by omega) (by omega) (solve s.base s.base.size) tree d
  · intro h4 h5 fuel c
    exact C23_never_succeeds l.toNat (by omega) (by omega) (by omega) (solve s.base s.base.size) tree fuel (by omega) d none c

/-- The solvers of the benchmarks are never stuck in this way. -/
example : ∀ size ∈ [(25 : ℤ), 50, 100, 500, 1000, 5000], 2 * size ≤ 15000 := by decide

/-! Deterministic herding -/

theorem validBlock_none : ValidBlock (.leaf none) := by
  left; simp [PyTree.leaves]

theorem defaultHerding_eq (big : ℝ) (k : X → X → ℝ) (size : ℕ) : defaultHerding big k size = herdingBaseU big k true (.leaf none) size := by
  funext n _ d
  simp only [defaultHerding, herdingBaseU]
  cases herdingReduce big k none true (.leaf none) size d none (List.finRange _) <;> rfl

theorem iterativeHerding_eq (big : ℝ) (k : X → X → ℝ) (p : IterParams) (hp : p.probabilistic = false) (choice : ∀ n, ℕ → SingleChoice n) (size n : ℕ) [NeZero n] (d : Data n X ℝ) :
    iterativeHerding big k p choice size n d =
      match herdingReduceIterative big k (fun _ => none) true (.leaf none) size d none (List.finRange _) p.iterations with
      | .error e => .error e
      | .ok r => .ok r.1 := by
  have : iterativeDraw p (choice n) = fun _ => none := by
    funext i; simp [iterativeDraw, hp]
  unfold iterativeHerding
  rw [this]
  cases herdingReduceIterative big k (fun _ => none) true (.leaf none) size d none (List.finRange _) p.iterations <;> rfl

/-- Iterations of the deterministic solver: valid, and not worse than a single pass. -/
theorem iterative_vs_herding (big : ℝ) (k : X → X → ℝ) (hk : ∀ a b, k a b = k b a) (p : IterParams) (hp : p.probabilistic = false) (hN : 1 ≤ p.iterations)
    (choice : ∀ n, ℕ → SingleChoice n) (size : ℕ) (hsize : 0 < size) {n : ℕ} [NeZero n] (d : Data n X ℝ) (hdiag : ∀ i j, k (d.data i) (d.data i) = k (d.data j) (d.data j))
    (hw : ∑ j, d.weights j ≠ 0) (hpos : PosCount d.weights size) :
    ∃ f f' : Fin size → Fin n, defaultHerding big k size n d = .ok ⟨fun t => (f t : ℤ), fun _ => 1⟩ ∧
      iterativeHerding big k p choice size n d = .ok ⟨fun t => (f' t : ℤ), fun _ => 1⟩ ∧
      (∀ t, 0 < d.weights (f t)) ∧ (∀ t, 0 < d.weights (f' t)) ∧ Function.Injective f ∧ Function.Injective f' ∧
      mmdSq k d.data d.weights (fun t => d.data (f' t)) (fun _ => 1) ≤ mmdSq k d.data d.weights (fun t => d.data (f t)) (fun _ => 1) := by
  obtain ⟨f, st, hf⟩ := C41_iterative_descent big k hk true (.leaf none) validBlock_none size hsize d hdiag hw (List.finRange _) List.mem_finRange hpos
  obtain ⟨N, hN'⟩ : ∃ N, p.iterations = N + 1 := ⟨p.iterations - 1, by omega⟩
  refine ⟨f 0, f N, ?_, ?_, (hf 0).2.1, (hf N).2.1, (hf 0).2.2.1 rfl, (hf N).2.2.1 rfl, ?_⟩
  · have h0 := (hf 0).1
    rw [C14_iterative_one big k _ true _ validBlock_none] at h0
    unfold defaultHerding
    rw [h0]
  · rw [iterativeHerding_eq big k p hp, hN', (hf N).1]
  · have hall : ∀ N, mmdSq k d.data d.weights (fun t => d.data (f N t)) (fun _ => 1)
        ≤ mmdSq k d.data d.weights (fun t => d.data (f 0 t)) (fun _ => 1) := by
      intro N
      induction N with
      | zero => exact le_rfl
      | succ N ih => exact (hf N).2.2.2.trans ih
    exact hall N

/-- C67: without a leaf size, "Iterative Herding" never gives a coreset of greater MMD than "Kernel Herding" of the same size, under every symmetric kernel that is constant on the diagonal, as the
kernel of the benchmarks is. -/
theorem C67_iterative_not_worse (big : ℝ) (k : X → X → ℝ) (hk : ∀ a b, k a b = k b a) (choice : ∀ n, ℕ → SingleChoice n) (other : BaseConfig → ∀ size, BaseSolver X ℝ size)
    (N : ℕ) (g size : ℤ) (make make' : ℤ → Except Err BenchSolver) (hm : ("Kernel Herding", make) ∈ solverFactories N g none) (hm' : ("Iterative Herding", make') ∈ solverFactories N g none)
    (s s' : BenchSolver) (hs : make size = .ok s) (hs' : make' size = .ok s') [NeZero s.base.size] [NeZero s'.base.size] (tree : TreeIndices X ℝ) (fuel : ℕ) {n : ℕ} [NeZero n] (d : Data n X ℝ)
    (hdiag : ∀ i j, k (d.data i) (d.data i) = k (d.data j) (d.data j)) (hw : ∑ j, d.weights j ≠ 0) (hpos : PosCount d.weights size.toNat) :
    ∃ (f : Fin s.base.size → Fin n) (f' : Fin s'.base.size → Fin n),
      benchReduce (benchSolve big k choice other) tree fuel s d = some (.ok ⟨fun t => (f t : ℤ), fun _ => 1⟩) ∧
      benchReduce (benchSolve big k choice other) tree fuel s' d = some (.ok ⟨fun t => (f' t : ℤ), fun _ => 1⟩) ∧
      Function.Injective f ∧ Function.Injective f' ∧
      mmdSq k d.data d.weights (fun t => d.data (f' t)) (fun _ => 1) ≤ mmdSq k d.data d.weights (fun t => d.data (f t)) (fun _ => 1) := by
  simp only [solverFactories, List.mem_cons, List.not_mem_nil, or_false, Prod.mk.injEq, String.reduceEq, false_and, false_or, true_and] at hm hm'
  subst hm hm'
  have hpz : 0 < size := by
    by_contra hc
    rw [getHerdingSolver, (wrapLeaf_spec none size _ fun _ => rfl).2 (fun h => hc h.1)] at hs
    cases hs
  rw [getHerdingSolver, (wrapLeaf_spec none size _ fun _ => rfl).1 hpz (by simp)] at hs
  rw [getIterativeHerdingSolver, (wrapLeaf_spec none size _ fun _ => rfl).1 hpz (by simp)] at hs'
  cases hs
  cases hs'
  obtain ⟨f, f', h1, h2, -, -, h5, h6, h7⟩ := iterative_vs_herding big k hk ⟨5, none, false, 1 / 1000⟩ rfl (by norm_num) choice size.toNat (by omega) d hdiag hw hpos
  exact ⟨f, f', congrArg some h1, congrArg some h2, h5, h6, h7⟩

/-- Three rows, a kernel with a constant diagonal, and coresets of two points. -/
example (choice : ∀ n, ℕ → SingleChoice n) (other : BaseConfig → (size : ℕ) → BaseSolver ℝ ℝ size) (tree : TreeIndices ℝ ℝ) :=
  C67_iterative_not_worse 1000 (fun a b : ℝ => Real.exp (-(a - b) ^ 2)) (fun a b => by congr 2; ring) choice other 1000 5 2 (getHerdingSolver none) (getIterativeHerdingSolver none)
    (by simp [solverFactories]) (by simp [solverFactories]) ⟨⟨.kernelHerding, 2, none, none, none⟩, none⟩ ⟨⟨.iterativeHerding, 2, none, none, some ⟨5, none, false, 1 / 1000⟩⟩, none⟩ rfl rfl tree 0
    (⟨![0, 1, 3], fun _ => 1⟩ : Data 3 ℝ ℝ) (fun i j => by simp) (by simp) (by simp [PosCount])

/-- The error bound of `C58_herding` for any base solver. -/
theorem mapReduce_rate (big : ℝ) (k : X → X → ℝ) (hk : IsPSD k) {size : ℕ} [NeZero size] (leaf : ℕ) (h0 : 2 ≤ leaf) (hs : size ≤ leaf / 2) (base : BaseSolver X ℝ size) {R : ℝ}
    (hb : BaseError base k true {x | k x x ≤ R} (Real.sqrt (R / size)))
    (tree : TreeIndices X ℝ) (ht : TreeContract tree) {N : ℕ} [NeZero N] (hN : leaf < N) (d : Data N X ℝ) (hw : ∀ t, d.weights t = 1)
    (hrows : size + mrPadding N leaf ≤ partRows N leaf) (hR : ∀ t, k (d.data t) (d.data t) ≤ R) :
    ∃ (rounds : ℕ) (f : Fin size → Fin N), rounds ≤ Nat.log 2 ((N - 1) / (leaf / 2)) + 2 ∧
      (∀ fuel, rounds ≤ fuel → mrRun leaf base tree fuel N d none = some (.ok ⟨fun t => ((f t : ℕ) : ℤ), fun _ => 1⟩)) ∧
      ∀ bs', ValidBlock bs' → ∃ r, mmdCompute big k d ⟨fun t => d.data (f t), fun _ => 1⟩ bs' = .ok r ∧
        r ≤ rounds * Real.sqrt (R / size) + Real.sqrt R * (2 * mrPadding N leaf / N) := by
  have hpp : ∀ t, 0 < d.weights t := fun t => by rw [hw]; exact one_pos
  obtain ⟨rounds, f, q, h1, h2, -, h3, h4, h5⟩ := C58_error big k hk leaf h0 hs base true {x | k x x ≤ R} (Real.sqrt_nonneg _)
    hb tree ht hN d (fun t => (hpp t).le) (fun _ => ⟨1, one_pos, fun t => Or.inr (hw t)⟩)
    (fun t _ => hR t) (C22_enough_rows leaf tree ht d hpp hrows)
  refine ⟨rounds, f, h1, h2, fun bs' hbs' => ?_⟩
  obtain ⟨r, b, e, g1, g2, -, -, g4⟩ := h5 bs' hbs'
  obtain ⟨b', g5, g6⟩ := C58_bias big k hk (NeZero.pos _) d (fun t => (hpp t).le) q h4 (fun t _ => hR t) bs' hbs'
  have hbb : b = b' := Except.ok.inj (g2.symm.trans g5)
  subst hbb
  refine ⟨r, g1, ?_⟩
  have g7 := mul_le_mul_of_nonneg_left (C58_padding leaf tree ht d hw q h3) (Real.sqrt_nonneg R)
  have g8 := (abs_le.1 g4).2
  linarith

/-- Iterative herding has the error bound of herding. -/
theorem iterative_base (big : ℝ) (k : X → X → ℝ) (hk : IsPSD k) (R : ℝ) (hR : ∀ a, k a a = R) (p : IterParams) (hp : p.probabilistic = false) (hN : 1 ≤ p.iterations)
    (choice : ∀ n, ℕ → SingleChoice n) (size : ℕ) (hsize : 0 < size) :
    BaseError (iterativeHerding big k p choice size) k true {x | k x x ≤ R} (Real.sqrt (R / size)) := by
  intro n _ d hw hu hpos hS
  have hW : 0 < ∑ j, d.weights j := by
    obtain ⟨j, hj⟩ := Finset.card_pos.1 (lt_of_lt_of_le hsize hpos)
    exact Finset.sum_pos' (fun i _ => hw i) ⟨j, Finset.mem_univ _, (Finset.mem_filter.1 hj).2⟩
  obtain ⟨f, f', h1, h2, -, h4, -, -, h7⟩ := iterative_vs_herding big k hk.1 p hp hN choice size hsize d (fun i j => by rw [hR, hR]) hW.ne' hpos
  obtain ⟨f'', g1, -, g3⟩ := C58_herding_base big k hk true (.leaf none) validBlock_none size hsize R n d hw hu hpos hS
  rw [← defaultHerding_eq, h1] at g1
  injection g1 with g1
  injection g1 with g1 _
  have : f'' = f := by
    funext t
    exact Fin.ext (by exact_mod_cast (congrFun g1 t).symm)
  rw [this] at g3
  exact ⟨f', h2, h4, h7.trans g3⟩

/-- C67: with a leaf size, "Kernel Herding" and "Iterative Herding" on unweighted data end with a coreset whose MMD is at most `rounds * sqrt (R / size) + 2 * padding / n * sqrt R`, for every positive
semi-definite kernel with the constant value `R` on the diagonal. -/
theorem C67_mapreduce_rate (big : ℝ) (k : X → X → ℝ) (hk : IsPSD k) (R : ℝ) (hR : ∀ a, k a a = R) (choice : ∀ n, ℕ → SingleChoice n) (other : BaseConfig → ∀ size, BaseSolver X ℝ size)
    (n : ℕ) (g size l : ℤ) (name : String) (hname : name = "Kernel Herding" ∨ name = "Iterative Herding") (make : ℤ → Except Err BenchSolver)
    (hm : (name, make) ∈ solverFactories n g (some l)) (s : BenchSolver) (hs : make size = .ok s) [NeZero s.base.size] (hl : 2 * size ≤ l)
    (tree : TreeIndices X ℝ) (ht : TreeContract tree) {N : ℕ} [NeZero N] (hN : l < N) (d : Data N X ℝ) (hw : ∀ t, d.weights t = 1)
    (hrows : size + mrPadding N l.toNat ≤ partRows N l.toNat) :
    ∃ (rounds : ℕ) (f : Fin s.base.size → Fin N), rounds ≤ Nat.log 2 ((N - 1) / (l.toNat / 2)) + 2 ∧
      (∀ fuel, rounds ≤ fuel → benchReduce (benchSolve big k choice other) tree fuel s d = some (.ok ⟨fun t => ((f t : ℕ) : ℤ), fun _ => 1⟩)) ∧
      ∀ bs', ValidBlock bs' → ∃ r, mmdCompute big k d ⟨fun t => d.data (f t), fun _ => 1⟩ bs' = .ok r ∧
        r ≤ rounds * Real.sqrt (R / size) + Real.sqrt R * (2 * mrPadding N l.toNat / N) := by
  have hpz := (factory_base n g (some l) name make hm size s hs).1
  have hcast : ((size.toNat : ℕ) : ℝ) = (size : ℝ) := by
    have : ((size.toNat : ℕ) : ℤ) = size := by omega
    exact_mod_cast this
  have hok : ∀ l', some l = some l' → size < l' := by rintro _ ⟨⟩; omega
  rcases hname with rfl | rfl
  · simp only [solverFactories, List.mem_cons, List.not_mem_nil, or_false, Prod.mk.injEq, String.reduceEq, false_and, false_or, true_and] at hm
    subst hm
    rw [getHerdingSolver, (wrapLeaf_spec (some l) size _ fun _ => rfl).1 hpz hok] at hs
    cases hs
    have hb : BaseError (defaultHerding big k size.toNat) k true {x | k x x ≤ R} (Real.sqrt (R / (size.toNat : ℕ))) := by
      rw [defaultHerding_eq]
      exact C58_herding_base big k hk true (.leaf none) validBlock_none size.toNat (by omega) R
    obtain ⟨rounds, f, h1, h2, h3⟩ := mapReduce_rate big k hk (size := size.toNat) l.toNat (by omega) (by omega) (defaultHerding big k size.toNat) hb tree ht (by omega) d hw (by omega)
      (fun t => (hR _).le)
    rw [hcast] at h3
    exact ⟨rounds, f, h1, h2, h3⟩
  · simp only [solverFactories, List.mem_cons, List.not_mem_nil, or_false, Prod.mk.injEq, String.reduceEq, false_and, false_or, true_and] at hm
    subst hm
    rw [getIterativeHerdingSolver, (wrapLeaf_spec (some l) size _ fun _ => rfl).1 hpz hok] at hs
    cases hs
    have hb := iterative_base big k hk R hR ⟨5, none, false, 1 / 1000⟩ rfl (by norm_num) choice size.toNat (by omega)
    obtain ⟨rounds, f, h1, h2, h3⟩ := mapReduce_rate big k hk (size := size.toNat) l.toNat (by omega) (by omega)
      (iterativeHerding big k ⟨5, none, false, 1 / 1000⟩ choice size.toNat) hb tree ht (by omega) d hw (by omega)
      (fun t => (hR _).le)
    rw [hcast] at h3
    exact ⟨rounds, f, h1, h2, h3⟩

/-- The MNIST benchmark: 60000 rows in four leaves of 15000, no padding, and room for 5000 points; so its coresets have an MMD of at most four times `sqrt (1 / size)`. -/
example : nLeaves 60000 15000 = 4 ∧ partRows 60000 15000 = 15000 ∧ mrPadding 60000 15000 = 0 ∧ 5000 + mrPadding 60000 15000 ≤ partRows 60000 15000 ∧
    Nat.log 2 ((60000 - 1) / (15000 / 2)) + 2 = 4 := by
  have h : nLeaves 60000 15000 = 4 := by decide +kernel
  have h1 : partRows 60000 15000 = 15000 := by unfold partRows; rw [h]
  have h2 : mrPadding 60000 15000 = 0 := by unfold mrPadding; rw [h1, h]
  exact ⟨h, h1, h2, by rw [h1, h2]; norm_num, by decide +kernel⟩

/-! Probabilistic herding -/

/-- C67: on positively weighted data every iterative solver of the dictionary returns distinct rows, given the contract of `jr.choice`. -/
theorem C67_iterative_valid (big : ℝ) (k : X → X → ℝ) (choice : ∀ n, ℕ → SingleChoice n) (n : ℕ) (g : ℤ) (leaf : Option ℤ) (name : String) (make : ℤ → Except Err BenchSolver)
    (h : (name, make) ∈ solverFactories n g leaf) (size : ℤ) (s : BenchSolver) (hs : make size = .ok s) (p : IterParams) (hp : s.base.iter = some p) {m : ℕ} [NeZero m]
    (hc : ∀ i, SingleChoiceContract (choice m i)) (d : Data m X ℝ) (hw : ∀ j, 0 < d.weights j) (hsz : s.base.size ≤ m) :
    ∃ f : Fin s.base.size → Fin m, iterativeHerding big k p choice s.base.size m d = .ok ⟨fun t => (f t : ℤ), fun _ => 1⟩ ∧ Function.Injective f := by
  obtain ⟨hpz, -, hb⟩ := factory_base n g leaf name make h size s hs
  have hsize : 0 < s.base.size := by
    rcases hb with e | e | e | e | e | e | e | e | e <;> rw [e] <;> show 0 < size.toNat <;> omega
  have hit : 1 ≤ p.iterations := by
    obtain ⟨-, -, h1 | h1 | h1⟩ := C67_temperatures n g leaf name make h size s hs p hp <;> rw [h1.1] <;> norm_num
  have hcon : ∀ i < p.iterations, DrawContract (iterativeDraw p (choice m) i) d.weights := by
    intro i hi
    rcases iterativeDraw_temperature h hs hp (choice m) i hi with h1 | ⟨T, hT, h1⟩
    · rw [h1]; rintro _ ⟨⟩
    · rw [h1]; exact C47_draw_contract (choice m i) (hc i) hT d.weights hw
  have hpos : PosCount d.weights s.base.size := by
    unfold PosCount
    rw [Finset.filter_true_of_mem fun j _ => hw j]
    simpa using hsz
  obtain ⟨rm, hrm, -⟩ := (C05_mean_errors big k d d .zero (.leaf none)).2.1 validBlock_none (NeZero.pos m) (NeZero.pos m)
  obtain ⟨h0, hstep⟩ := C14_iterative big k (iterativeDraw p (choice m)) true (.leaf none) s.base.size d none (List.finRange _) hsz rm hrm
  have key : ∀ N < p.iterations, ∃ (f : Fin s.base.size → Fin m) (st : List ℝ),
      herdingReduceIterative big k (iterativeDraw p (choice m)) true (.leaf none) s.base.size d none (List.finRange _) (N + 1) = .ok (⟨fun t => (f t : ℤ), fun _ => 1⟩, st) ∧
        Function.Injective f := by
    intro N
    induction N with
    | zero =>
      intro hi
      obtain ⟨f, st, h1, h2, h3⟩ := C11_reduce_valid big k (iterativeDraw p (choice m) 0) true (.leaf none) validBlock_none s.base.size hsize d (hcon 0 hi) none (List.finRange _)
        List.mem_finRange hpos
      exact ⟨f, st, by rw [C14_iterative_one big k _ true _ validBlock_none, h1], h3 rfl⟩
    | succ N ih =>
      intro hi
      obtain ⟨f, st, h1, h2⟩ := ih (by omega)
      obtain ⟨f', st', h3, h4, h5⟩ := C11_refine_valid big k (iterativeDraw p (choice m) (N + 1)) true (.leaf none) validBlock_none s.base.size hsize d (hcon (N + 1) hi)
        ⟨fun t => (f t : ℤ), fun _ => 1⟩ (fun t => ⟨by simp, by simp⟩) (some st) (List.finRange _) List.mem_finRange (by simpa using hpos)
      refine ⟨f', st', ?_, h5 rfl⟩
      rw [hstep (N + 1), h1]
      exact h3
  obtain ⟨f, st, h1, h2⟩ := key (p.iterations - 1) (by omega)
  rw [Nat.sub_add_cancel hit] at h1
  refine ⟨f, ?_, h2⟩
  unfold iterativeHerding
  rw [h1]

example (choice : ∀ n, ℕ → SingleChoice n) (hc : ∀ i, SingleChoiceContract (choice 3 i)) :=
  C67_iterative_valid 1000 (fun a b : ℝ => a * b) choice 1000 5 none "Iterative Probabilistic Herding (cubic)" (getCubicIterativeHerdingSolver none) (by simp [solverFactories]) 2
    ⟨⟨.iterativeHerding, 2, none, none, some ⟨10, some cubicSchedule, true, 1 / 1000⟩⟩, none⟩ rfl _ rfl hc (⟨![0, 1, 3], fun _ => 1⟩ : Data 3 ℝ ℝ) (fun _ => by norm_num) (by norm_num)

/-- A refinement in probabilistic mode of data with a row without positive weight: if the generator returns `c0` whenever the probabilities are NaN, the result consists of copies of `c0`, for a coreset
that has no positive weights or consists of copies of `c0` itself. -/
theorem refine_blind {n : ℕ} [NeZero n] (big : ℝ) (k : X → X → ℝ) (choice : SingleChoice n) (c0 : ℤ) (hc : ∀ t, (choice t fun _ => .nan) = c0) (T : ℝ) (unique : Bool) (bs : PyTree (Option ℤ))
    (size : ℕ) (pre : Data n X ℝ) (c : Data size ℤ ℝ) (state : Option (List ℝ)) (ord : List (Fin (size + (size - size)))) (hz : ∃ j, ¬ 0 < pre.weights j)
    (hcop : (∀ t, ¬ 0 < c.weights t) ∨ ∀ t, c.data t = c0) (r : Data size ℤ ℝ × List ℝ)
    (hr : herdingRefine big k (some (softmaxDraw choice T)) unique bs size pre c state ord = .ok r) :
    r.1 = ⟨fun _ => c0, fun _ => 1⟩ := by
  obtain ⟨j0, hj0⟩ := hz
  simp only [herdingRefine] at hr
  cases hrm : cachedRowMean big k pre bs state with
  | error e => rw [hrm] at hr; cases hr
  | ok rm =>
    rw [hrm] at hr
    simp only [greedySelection] at hr
    cases hip : initPenalty big k pre bs (padIndices c size) with
    | error e => rw [hip] at hr; cases hr
    | ok ps =>
      obtain ⟨pen, sz⟩ := ps
      rw [hip] at hr
      simp only [Except.ok.injEq] at hr
      rw [← hr]
      set p := padIndices c size with hp
      have hcop' : (∀ t, ¬ 0 < p.weights t) ∨ ∀ t, p.data t = c0 := by
        rcases hcop with h | h
        · left
          intro t
          simp only [hp, padIndices, zeroPad]
          cases t using Fin.addCases with
          | left t => simpa using h t
          | right t => exact absurd t.2 (by omega)
        · right
          intro t
          simp only [hp, padIndices, zeroPad]
          cases t using Fin.addCases with
          | left t => simpa using h t
          | right t => exact absurd t.2 (by omega)
      have hstep : ∀ (i : Fin (size + (size - size))) (s : GreedyState n (size + (size - size)) ℝ), ((∀ t, ¬ 0 < p.weights t) ∨ ∀ t, s.idx t = c0) →
          (greedyBody k pre.data pre.weights unique ord p.weights (herdingSelect (some (softmaxDraw choice T)) (asVec n rm)) i s).idx
            = Function.update s.idx i c0 := by
        intro i s hs
        rw [← hc i]
        unfold greedyBody
        simp only
        congr 1
        unfold herdingSelect softmaxDraw
        simp only
        congr 1
        have hnan : ∀ pn : Fin n → Ext ℝ, maskedPenalty pre.weights unique ord p.weights i s.idx pn j0 = .nan := by
          intro pn
          have hv : (fun j => if pre.weights j > 0 then pn j else Ext.nan) j0 = .nan := if_neg hj0
          have hno : ∀ t, ¬ (s.idx t ≠ s.idx i ∧ p.weights t > 0) := by
            rintro t ⟨h1, h2⟩
            rcases hs with h | h
            · exact h t h2
            · exact h1 ((h t).trans (h i).symm)
          unfold maskedPenalty
          simp only [hno, if_false]
          cases unique
          · exact hv
          · rw [if_pos rfl, scatterSet_self]
            exact hv
        unfold herdingProbs
        rcases C47_softmax_dichotomy (fun j => herdingResidual (asVec n rm) (maskedPenalty pre.weights unique ord p.weights i s.idx
            (subtractOwn k pre.data p.weights i s)) (if p.weights i > 0 then s.size else s.size + 1) j / Ext.fin T) with ⟨h, -⟩ | ⟨-, h⟩
        · exfalso
          apply h j0
          unfold herdingResidual
          rw [hnan]
          rfl
        · exact h
      have hloop := forLoop_inv (P := fun i (s : GreedyState n (size + (size - size)) ℝ) =>
          ((∀ t, ¬ 0 < p.weights t) ∨ ∀ t, s.idx t = c0) ∧ ∀ t : Fin (size + (size - size)), (t : ℕ) < i → s.idx t = c0) size
        (fun i => greedyBody k pre.data pre.weights unique ord p.weights (herdingSelect (some (softmaxDraw choice T)) (asVec n rm)) (i.castLE (out_le_padded size size)))
        ⟨p.data, pen, sz⟩ ⟨hcop', fun t ht => absurd ht (by omega)⟩ (by
          rintro i s ⟨hs, hs'⟩
          rw [hstep _ _ hs]
          refine ⟨hs.imp id fun h t => ?_, fun t ht => ?_⟩
          · by_cases h' : t = i.castLE (out_le_padded size size)
            · rw [h', Function.update_self]
            · rw [Function.update_of_ne h', h]
          · by_cases h' : t = i.castLE (out_le_padded size size)
            · rw [h', Function.update_self]
            · rw [Function.update_of_ne h']
              refine hs' t ?_
              have : (t : ℕ) ≠ i := fun hh => h' (Fin.ext hh)
              omega)
      show (⟨_, _⟩ : Data size ℤ ℝ) = _
      congr 1
      funext t
      exact hloop.2 (t.castLE _) t.2

/-- C67: a row without positive weight makes the probabilistic iterative solvers useless: if `jr.choice` returns a fixed index whenever all probabilities are NaN, the result is that row, `size` times, for
all data, kernels, temperatures and numbers of iterations. -/
theorem C67_zero_weight_row (big : ℝ) (k : X → X → ℝ) (choice : ∀ n, ℕ → SingleChoice n) (p : IterParams) (hp : p.probabilistic = true) (hN : 1 ≤ p.iterations) (size : ℕ) (hsize : 0 < size)
    {m : ℕ} [NeZero m] (c0 : ℤ) (hc : ∀ i t, (choice m i t fun _ => .nan) = c0) (d : Data m X ℝ) (hz : ∃ j, ¬ 0 < d.weights j) (hsz : size ≤ m) :
    iterativeHerding big k p choice size m d = .ok ⟨fun _ => c0, fun _ => 1⟩ := by
  obtain ⟨rm, hrm, -⟩ := (C05_mean_errors big k d d .zero (.leaf none)).2.1 validBlock_none (NeZero.pos m) (NeZero.pos m)
  obtain ⟨h0, hstep⟩ := C14_iterative big k (iterativeDraw p (choice m)) true (.leaf none) size d none (List.finRange _) hsz rm hrm
  have hdraw : ∀ i, ∃ T, iterativeDraw p (choice m) i = some (softmaxDraw (choice m i) T) := fun i => by
    unfold iterativeDraw
    rw [if_pos hp]
    exact ⟨_, rfl⟩
  have hok : ∀ (c : Data size ℤ ℝ) (st : List ℝ) (prob : Option (Draw m ℝ)),
      ∃ r, herdingRefine big k prob true (.leaf none) size d c (some st) (List.finRange _) = .ok r := by
    intro c st prob
    unfold herdingRefine greedySelection
    obtain ⟨l, hl, -⟩ := (C05_mean_errors big k (Data.ofArray d.data)
      (⟨fun t => d.data (gatherIdx m ((padIndices c size).data t)), (padIndices c size).weights⟩ : Data (size + (size - size)) X ℝ) .one (.leaf none)).2.1 validBlock_none
      (NeZero.pos m) (by omega)
    simp only [cachedRowMean, initPenalty, hl]
    exact ⟨_, rfl⟩
  have key : ∀ N, ∃ st : List ℝ, herdingReduceIterative big k (iterativeDraw p (choice m)) true (.leaf none) size d none (List.finRange _) (N + 1)
      = .ok (⟨fun _ => c0, fun _ => 1⟩, st) := by
    intro N
    induction N with
    | zero =>
      obtain ⟨T, hT⟩ := hdraw 0
      obtain ⟨r, hr⟩ := hok ⟨fun _ => 0, fun _ => 0⟩ rm (iterativeDraw p (choice m) 0)
      rw [hstep 0, h0]
      simp only
      rw [hr]
      rw [hT] at hr
      have := refine_blind big k (choice m 0) c0 (hc 0) T true (.leaf none) size d _ _ _ hz (Or.inl fun t => lt_irrefl _) r hr
      exact ⟨r.2, by rw [← this]⟩
    | succ N ih =>
      obtain ⟨st, ih⟩ := ih
      obtain ⟨T, hT⟩ := hdraw (N + 1)
      obtain ⟨r, hr⟩ := hok ⟨fun _ => c0, fun _ => 1⟩ st (iterativeDraw p (choice m) (N + 1))
      rw [hstep (N + 1), ih]
      simp only
      rw [hr]
      rw [hT] at hr
      have := refine_blind big k (choice m (N + 1)) c0 (hc (N + 1)) T true (.leaf none) size d _ _ _ hz (Or.inr fun t => rfl) r hr
      exact ⟨r.2, by rw [← this]⟩
  obtain ⟨st, h1⟩ := key (p.iterations - 1)
  rw [Nat.sub_add_cancel hN] at h1
  unfold iterativeHerding
  rw [h1]

example := C67_zero_weight_row 1000 (fun a b : ℝ => a * b) (fun _ _ _ _ => 0) ⟨5, none, true, 1 / 1000⟩ rfl (by norm_num) 2 (by norm_num) 0 (fun _ _ => rfl) (⟨![0, 1, 3], ![1, 1, 0]⟩ : Data 3 ℝ ℝ)
  ⟨2, by simp⟩ (by norm_num)

/-- C67: with a leaf size for which the leaves need padding, at least one leaf is represented by copies of a single row in the first round, though all rows of the data have weight one. -/
theorem C67_padding_blind (big : ℝ) (k : X → X → ℝ) (choice : ∀ n, ℕ → SingleChoice n) (p : IterParams) (hp : p.probabilistic = true) (hN : 1 ≤ p.iterations) (size : ℕ) (hsize : 0 < size)
    (leaf : ℕ) (tree : TreeIndices X ℝ) (ht : TreeContract tree) {N : ℕ} [NeZero N] (d : Data N X ℝ) (hpad : 0 < mrPadding N leaf) (hsz : size ≤ partRows N leaf) (c0 : ℤ)
    (hc : ∀ i t, (choice (partRows N leaf) i t fun _ => .nan) = c0) :
    ∃ q, iterativeHerding big k p choice size (partRows N leaf) (partData leaf tree d q) = .ok ⟨fun _ => c0, fun _ => 1⟩ := by
  obtain ⟨F, hF, hbij⟩ := ht (N + mrPadding N leaf) (nLeaves N leaf) (partRows N leaf) (d.pad (mrPadding N leaf)) (add_mrPadding N leaf)
  obtain ⟨⟨q, t⟩, hqt⟩ := hbij.2 (Fin.natAdd N ⟨0, hpad⟩)
  refine ⟨q, C67_zero_weight_row big k choice p hp hN size hsize c0 hc _ ⟨t, ?_⟩ hsz⟩
  have : (partData leaf tree d q).weights t = 0 := by
    unfold partData Data.getItem
    simp only [hF]
    rw [gatherIdx_coe]
    simp only at hqt
    rw [hqt]
    unfold Data.pad zeroPad
    simp only
    rw [Fin.append_right]
  rw [this]
  exact lt_irrefl _

/-- Five rows and a leaf size of four: two leaves of three rows, one of them with a row of padding. -/
example : nLeaves 5 4 = 2 ∧ partRows 5 4 = 3 ∧ mrPadding 5 4 = 1 := by decide +kernel

end Reduce

/-! The sizes of the David benchmark -/

/-- C67: the coreset size of the David benchmark is positive, so that the solvers can be constructed, exactly for the downsampling factors from 1 to 89 (and their negatives). -/
theorem C67_david_size (factor : ℤ) :
    (factor = 0 → davidSize factor = .error .zeroDivisionError) ∧
    (factor ≠ 0 → ∃ size, davidSize factor = .ok size ∧ size * factor ^ 2 ≤ 8000 ∧ 8000 < (size + 1) * factor ^ 2 ∧ (0 < size ↔ |factor| ≤ 89)) := by
  refine ⟨fun h => by subst h; rfl, fun h => ?_⟩
  have hp : 0 < factor ^ 2 := by positivity
  have h1 := Int.ediv_mul_le 8000 hp.ne'
  have h2 := Int.lt_ediv_add_one_mul_self 8000 hp
  refine ⟨8000 / factor ^ 2, by unfold davidSize; rw [if_neg hp.ne'], h1, h2, ?_⟩
  have hsq : factor ^ 2 = |factor| ^ 2 := (sq_abs _).symm
  have h0 := abs_nonneg factor
  constructor
  · intro h3
    by_contra h4
    have : (90 : ℤ) ≤ |factor| := by omega
    nlinarith
  · intro h3
    by_contra h4
    have h5 : 8000 / factor ^ 2 + 1 ≤ 1 := by omega
    have h6 := mul_le_mul_of_nonneg_right h5 hp.le
    nlinarith

example : davidSize 1 = .ok 8000 ∧ davidSize 6 = .ok 222 ∧ davidSize 90 = .ok 0 := by decide +kernel

/-- C67: the oversampling factor of the David benchmark is the largest that Compress++ accepts. With it no compression takes place: the solver thins a random draw of `4 ^ g` rows, and raises for coreset sizes
above `4 ^ g`. -/
theorem C67_david_oversampling {X : Type*} [Zero X] {n size : ℕ} [NeZero n] [NeZero size] (P : KTParams X) (clip : ∀ l : ℕ, Choice n l ℝ) (d : Data n X ℝ) :
    ∃ g : ℕ, davidOversampling n = .ok g ∧ 4 ^ g ≤ n ∧ n < 4 ^ (g + 1) ∧
      (4 ^ g < size → compressPlusPlus (size := size) P g clip d = .error .valueError) ∧
      (size ≤ 4 ^ g → compressPlusPlus P g clip d = cppThin P d size (clip (cppSize g 0) none false)) ∧
      cppSize g 0 = 4 ^ g := by
  have hg : 4 ^ Nat.log 4 n ≤ n := Nat.pow_log_le_self 4 (NeZero.ne n)
  have h4 : 2 ^ Nat.log 4 n * 2 ^ Nat.log 4 n = 4 ^ Nat.log 4 n := by rw [← mul_pow]; norm_num
  refine ⟨Nat.log 4 n, by unfold davidOversampling; rw [if_neg (NeZero.ne n)], hg, Nat.lt_pow_succ_log_self (by norm_num) n, fun h => ?_, fun h => ?_, ?_⟩
  · unfold compressPlusPlus compressPlusPlusAt
    by_cases hn : size > n
    · rw [if_pos hn]
    · rw [if_neg hn]
      simp only [Int.natCast_nonneg, le_refl, and_self, dite_true, Int.toNat_natCast]
      rw [if_neg (by omega)]
  · unfold compressPlusPlus compressPlusPlusAt
    rw [if_neg (show ¬ size > n by omega)]
    simp only [Int.natCast_nonneg, le_refl, and_self, dite_true, Int.toNat_natCast]
    rw [if_pos (by omega)]
    have key : ∀ j, j = 0 → (match cppCompress P d (Nat.log 4 n) j (clip (cppRows (Nat.log 4 n) j) none false) with
        | .error e => (.error e : Except Err (Fin size → ℤ))
        | .ok r => cppThin P d size r) = cppThin P d size (clip (cppSize (Nat.log 4 n) 0) none false) := by
      rintro _ rfl
      rfl
    have := key _ (Nat.sub_self (Nat.log 4 n))
    rw [← this]
    cases cppCompress P d (Nat.log 4 n) (Nat.log 4 n - Nat.log 4 n) (clip (cppRows (Nat.log 4 n) (Nat.log 4 n - Nat.log 4 n)) none false) <;> rfl
  · rfl

end Coreax
