import Verif.Model.Benchmarks
import Verif.Lemmas.Basic

/-!
# C60: what the tables and statistics of the benchmarks contain
-/

set_option linter.unusedSectionVars false

namespace Coreax

variable {K : Type} [Field K] [LinearOrder K] [IsStrictOrderedRing K]

/-! ### Averages over seeds -/

section averages
variable {S : Type}

theorem foldl_append_seen (v : String → BlobMetric → Ext K) (old : String → BlobMetric → List (Ext K)) :
    ∀ (todo done : List String), (done ++ todo).Nodup →
      (todo.map fun nm => (nm, v nm)).foldl appendResult
          ((done.map fun nm => (nm, fun q => old nm q ++ [v nm q])) ++ todo.map fun nm => (nm, old nm)) =
        (done ++ todo).map fun nm => (nm, fun q => old nm q ++ [v nm q])
  | [], done, _ => by simp
  | a :: todo, done, hnd => by
    have hda : ∀ x ∈ done, x ≠ a := by
      intro x hx h
      subst h
      exact (List.nodup_append.1 hnd).2.2 x hx x (by simp) rfl
    have hta : ∀ x ∈ todo, x ≠ a := by
      intro x hx h
      subst h
      exact (List.nodup_cons.1 (List.nodup_append.1 hnd).2.1).1 hx
    have hstep : appendResult ((done.map fun nm => (nm, fun q => old nm q ++ [v nm q])) ++ (a :: todo).map fun nm => (nm, old nm)) (a, v a) =
        ((done ++ [a]).map fun nm => (nm, fun q => old nm q ++ [v nm q])) ++ todo.map fun nm => (nm, old nm) := by
      have hmem : a ∈ (((done.map fun nm => (nm, fun q => old nm q ++ [v nm q])) ++ (a :: todo).map fun nm => (nm, old nm)).map Prod.fst) := by
        simp
      unfold appendResult
      simp only []
      rw [if_pos hmem]
      simp only [List.map_append, List.map_map, List.map_cons, List.map_nil, List.append_assoc, List.singleton_append, if_true]
      congr 1
      · refine List.map_congr_left fun x hx => ?_
        simp [hda x hx]
      · congr 1
        refine List.map_congr_left fun x hx => ?_
        simp [hta x hx]
    refine (congrArg (List.foldl appendResult · (todo.map fun nm => (nm, v nm))) hstep).trans ?_
    rw [foldl_append_seen v old todo (done ++ [a]) (by simpa using hnd)]
    simp

theorem foldl_append_new (v : String → BlobMetric → Ext K) :
    ∀ (todo done : List String), (done ++ todo).Nodup →
      (todo.map fun nm => (nm, v nm)).foldl appendResult (done.map fun nm => (nm, fun q => [v nm q])) = (done ++ todo).map fun nm => (nm, fun q => [v nm q])
  | [], done, _ => by simp
  | a :: todo, done, hnd => by
    have hda : ∀ x ∈ done, x ≠ a := by
      intro x hx h
      subst h
      exact (List.nodup_append.1 hnd).2.2 x hx x (by simp) rfl
    have hstep : appendResult (done.map fun nm => (nm, fun q => [v nm q])) (a, v a) = (done ++ [a]).map fun nm => (nm, fun q => [v nm q]) := by
      have hmem : a ∉ ((done.map fun nm => ((nm, fun q => [v nm q]) : String × (BlobMetric → List (Ext K)))).map Prod.fst) := by
        simp only [List.map_map, List.mem_map, Function.comp]
        rintro ⟨x, hx, h⟩
        exact hda x hx h
      unfold appendResult
      simp only []
      rw [if_neg hmem]
      simp only [List.map_append, List.map_map, List.map_cons, List.map_nil, if_true, List.nil_append]
      congr 1
      refine List.map_congr_left fun x hx => ?_
      simp [hda x hx]
    refine (congrArg (List.foldl appendResult · (todo.map fun nm => (nm, v nm))) hstep).trans ?_
    rw [foldl_append_new v todo (done ++ [a]) (by simpa using hnd)]
    simp

theorem aggregateBlobs_eq (names : List String) (hn : names.Nodup) (sizes : List ℕ) (value : S → ℕ → String → BlobMetric → Ext K) (seeds : List S)
    (hs : seeds ≠ []) :
    aggregateBlobs (fun s size => names.map fun nm => (nm, value s size nm)) seeds sizes =
      sizes.map fun size => (size, names.map fun nm => (nm, fun q => seeds.map fun s => value s size nm q)) := by
  induction seeds using List.reverseRecOn with
  | nil => exact absurd rfl hs
  | append_singleton l a ih =>
    unfold aggregateBlobs at ih ⊢
    rw [List.foldl_append, List.foldl_cons, List.foldl_nil]
    by_cases hl : l = []
    · subst hl
      simp only [List.foldl_nil, List.map_map, List.nil_append, List.map_cons, List.map_nil]
      refine List.map_congr_left fun size _ => ?_
      simp only [Function.comp]
      have := foldl_append_new (value a size) names [] (by simpa using hn)
      simp only [List.map_nil, List.nil_append] at this
      rw [this]
    · rw [ih hl, List.map_map]
      refine List.map_congr_left fun size _ => ?_
      simp only [Function.comp]
      have := foldl_append_seen (value a size) (fun nm q => l.map fun s => value s size nm q) names [] (by simpa using hn)
      simp only [List.map_nil, List.nil_append] at this
      rw [this]
      simp

theorem foldl_fin (l : List K) (a : K) : (l.map Ext.fin).foldl (· + ·) (Ext.fin a) = Ext.fin (a + l.sum) := by
  induction l generalizing a with
  | nil => simp
  | cons x l ih =>
    rw [List.map_cons, List.foldl_cons, show (Ext.fin a + Ext.fin x : Ext K) = Ext.fin (a + x) from rfl, ih, List.sum_cons]
    congr 1
    ring

theorem foldl_nan (l : List (Ext K)) (a : Ext K) (h : a = .nan ∨ .nan ∈ l) : l.foldl (· + ·) a = .nan := by
  induction l generalizing a with
  | nil => simpa using h
  | cons x l ih =>
    rw [List.foldl_cons]
    refine ih _ ?_
    rcases h with rfl | h
    · exact .inl (by cases x <;> rfl)
    · rcases List.mem_cons.1 h with rfl | h
      · exact .inl (by cases a <;> rfl)
      · exact .inr h

/-- C60: the results that are saved hold, for every size and every solver, in the order of the lists, the mean over all seeds of each metric. -/
theorem C60_averages (names : List String) (hn : names.Nodup) (sizes : List ℕ) (value : S → ℕ → String → BlobMetric → K) (seeds : List S) (hs : seeds ≠ []) :
    finalBlobs (fun s size => names.map fun nm => (nm, fun q => .fin (value s size nm q))) seeds sizes =
      sizes.map fun size => (size, names.map fun nm => (nm, fun q => .fin ((seeds.map fun s => value s size nm q).sum / seeds.length))) := by
  rw [finalBlobs, aggregateBlobs_eq names hn sizes (fun s size nm q => .fin (value s size nm q)) seeds hs, List.map_map]
  refine List.map_congr_left fun size _ => ?_
  simp only [Function.comp, List.map_map]
  congr 1
  refine List.map_congr_left fun nm _ => ?_
  simp only [Function.comp]
  congr 1
  funext q
  have h := foldl_fin (seeds.map fun s => value s size nm q) 0
  rw [List.map_map] at h
  have hlen : ((seeds.length : ℕ) : K) ≠ 0 := by
    rw [Nat.cast_ne_zero]
    exact fun h => hs (List.length_eq_zero_iff.1 h)
  simp only [pyAverage, List.length_map]
  rw [show (seeds.map fun s => Ext.fin (value s size nm q)) = seeds.map (Ext.fin ∘ fun s => value s size nm q) from rfl, h, zero_add]
  change Ext.div _ _ = _
  simp only [Ext.div, if_neg hlen]

example := C60_averages ["a", "b"] (by decide) [25, 50] (fun (s : ℚ) size _ _ => s * (size : ℚ)) [(1 : ℚ), 4] (by decide)

/-- C60: one NaN among the values of the seeds makes the saved mean NaN. -/
theorem C60_average_nan (names : List String) (hn : names.Nodup) (sizes : List ℕ) (value : S → ℕ → String → BlobMetric → Ext K) (seeds : List S)
    (s : S) (hs : s ∈ seeds) (size : ℕ) (nm : String) (hnm : nm ∈ names) (q : BlobMetric) (hv : value s size nm q = .nan)
    (row : List (String × (BlobMetric → Ext K))) (hrow : (size, row) ∈ finalBlobs (fun s size => names.map fun nm => (nm, value s size nm)) seeds sizes) :
    ∃ cell, (nm, cell) ∈ row ∧ cell q = .nan := by
  rw [finalBlobs, aggregateBlobs_eq names hn sizes value seeds (List.ne_nil_of_mem hs), List.map_map] at hrow
  obtain ⟨size', -, h⟩ := List.mem_map.1 hrow
  simp only [Function.comp, List.map_map, Prod.mk.injEq] at h
  obtain ⟨rfl, rfl⟩ := h
  refine ⟨_, List.mem_map.2 ⟨nm, hnm, rfl⟩, ?_⟩
  simp only [Function.comp, pyAverage]
  rw [foldl_nan _ _ (.inr (by rw [List.mem_map]; exact ⟨s, hs, hv⟩))]
  rfl

/-- Two seeds, two sizes, two solvers. -/
example : (finalBlobs (K := ℚ) (fun (s : ℚ) size => ["a", "b"].map fun nm => (nm, fun _ => .fin (s + size + if nm = "a" then 0 else 10))) [1, 4] [25, 50]).map
    (fun p => (p.1, p.2.map fun c => (c.1, c.2 .time))) =
    [(25, [("a", .fin (55 / 2)), ("b", .fin (75 / 2))]), (50, [("a", .fin (105 / 2)), ("b", .fin (125 / 2))])] := by
  decide +kernel

end averages

/-! ### Highlighted cells -/

section bold

theorem lt_trans_like {x b y : Ext K} (hxb : Ext.lt x b = true) (hyb : Ext.lt y b = false) : Ext.lt y x = false := by
  cases x <;> cases b <;> cases y <;> simp_all [Ext.lt]
  linarith

theorem eq_of_not_lt {x y : Ext K} (hx : x ≠ .nan) (hy : y ≠ .nan) (h1 : Ext.lt x y = false) (h2 : Ext.lt y x = false) : x = y := by
  cases x <;> cases y <;> simp_all [Ext.lt]
  exact le_antisymm h2 h1

theorem lt_irrefl_ext (x : Ext K) : Ext.lt x x = false := by cases x <;> simp [Ext.lt]

theorem pyMin_spec (rest : List (Ext K)) (first : Ext K) (h : first ≠ .nan) :
    pyMin first rest ≠ .nan ∧ pyMin first rest ∈ first :: rest ∧ ∀ y ∈ first :: rest, Ext.lt y (pyMin first rest) = false := by
  induction rest using List.reverseRecOn with
  | nil =>
    refine ⟨h, by simp [pyMin], fun y hy => ?_⟩
    simp only [List.mem_singleton] at hy
    subst hy
    exact lt_irrefl_ext _
  | append_singleton l a ih =>
    obtain ⟨h1, h2, h3⟩ := ih
    have hp : pyMin first (l ++ [a]) = if Ext.lt a (pyMin first l) then a else pyMin first l := by
      rw [pyMin, List.foldl_append]
      rfl
    rw [hp]
    by_cases hc : Ext.lt a (pyMin first l) = true
    · rw [if_pos hc]
      refine ⟨fun hn => by subst hn; simp [Ext.lt] at hc, by simp, ?_⟩
      intro y hy
      rcases List.mem_cons.1 hy with rfl | hy
      · exact lt_trans_like hc (h3 _ (by simp))
      · rcases List.mem_append.1 hy with hy | hy
        · exact lt_trans_like hc (h3 _ (by simp [hy]))
        · rw [List.mem_singleton.1 hy]
          exact lt_irrefl_ext _
    · rw [if_neg hc]
      refine ⟨h1, ?_, ?_⟩
      · rcases List.mem_cons.1 h2 with h | h
        · rw [h]; simp
        · simp [h]
      · intro y hy
        rcases List.mem_cons.1 hy with rfl | hy
        · exact h3 _ (by simp)
        · rcases List.mem_append.1 hy with hy | hy
          · exact h3 _ (by simp [hy])
          · rw [List.mem_singleton.1 hy]
            simpa using hc

/-- C60: if the first method of a column has a value other than NaN, the cells in bold are exactly the least values of the column, and there is at least one. -/
theorem C60_bold (first : Ext K) (rest : List (Ext K)) (h : first ≠ .nan) :
    boldCells (first :: rest) = (first :: rest).map (fun v => decide (v ≠ .nan ∧ ∀ y ∈ first :: rest, Ext.lt y v = false)) ∧
      true ∈ boldCells (first :: rest) := by
  obtain ⟨h1, h2, h3⟩ := pyMin_spec rest first h
  constructor
  · simp only [boldCells]
    refine List.map_congr_left fun v hv => ?_
    rw [Bool.eq_iff_iff, decide_eq_true_iff]
    constructor
    · intro he
      simp only [Ext.eqF, Bool.and_eq_true, decide_eq_true_iff] at he
      rw [he.2]
      exact ⟨h1, h3⟩
    · rintro ⟨hv1, hv2⟩
      have : v = pyMin first rest := eq_of_not_lt hv1 h1 (h3 v hv) (hv2 _ h2)
      simp only [Ext.eqF, Bool.and_eq_true, decide_eq_true_iff]
      refine ⟨?_, this⟩
      cases v <;> simp_all [Ext.isNan]
  · simp only [boldCells, List.mem_map]
    refine ⟨_, h2, ?_⟩
    simp only [Ext.eqF, Bool.and_eq_true, decide_eq_true_iff, and_true]
    revert h1
    generalize pyMin first rest = z
    cases z <;> simp [Ext.isNan]

example := C60_bold (Ext.fin (2 : ℚ)) [.nan, .fin 1, .ninf] (by simp)

theorem pyMin_nan (rest : List (Ext K)) : pyMin .nan rest = .nan := by
  induction rest with
  | nil => rfl
  | cons x l ih =>
    have : Ext.lt x (.nan : Ext K) = false := by cases x <;> rfl
    simp only [pyMin, List.foldl_cons, this] at ih ⊢
    exact ih

/-- C60: if the first method of a column has the value NaN, no cell of the column is in bold, whatever the others are. -/
theorem C60_bold_none (rest : List (Ext K)) : true ∉ boldCells (.nan :: rest) := by
  simp only [boldCells, pyMin_nan, List.mem_map, not_exists, not_and]
  intro x _ h
  simp only [Ext.eqF, Bool.and_eq_true, decide_eq_true_iff] at h
  obtain ⟨h1, rfl⟩ := h
  simp [Ext.isNan] at h1

/-- The order of the methods matters: the same three values. -/
example : boldCells [.fin (2 : ℚ), .nan, .fin 1] = [false, false, true] ∧ boldCells [.nan, .fin (2 : ℚ), .fin 1] = [false, false, false] ∧
    boldCells [.fin (1 : ℚ), .fin 2, .fin 1] = [true, false, true] := by
  decide +kernel

end bold

/-! ### Statistics over runs -/

section statistics

theorem foldl_min_spec (l : List K) (x : K) : l.foldl min x ∈ x :: l ∧ ∀ y ∈ x :: l, l.foldl min x ≤ y := by
  induction l using List.reverseRecOn with
  | nil => simp
  | append_singleton l a ih =>
    rw [List.foldl_append, List.foldl_cons, List.foldl_nil]
    obtain ⟨h1, h2⟩ := ih
    constructor
    · rcases min_choice (l.foldl min x) a with h | h
      · rw [h]
        rcases List.mem_cons.1 h1 with h | h
        · rw [h]; simp
        · simp [h]
      · rw [h]; simp
    · intro y hy
      rcases List.mem_cons.1 hy with rfl | hy
      · exact (min_le_left _ _).trans (h2 _ (by simp))
      · rcases List.mem_append.1 hy with hy | hy
        · exact (min_le_left _ _).trans (h2 _ (by simp [hy]))
        · rw [List.mem_singleton.1 hy]
          exact min_le_right _ _

theorem foldl_max_spec (l : List K) (x : K) : l.foldl max x ∈ x :: l ∧ ∀ y ∈ x :: l, y ≤ l.foldl max x := by
  induction l using List.reverseRecOn with
  | nil => simp
  | append_singleton l a ih =>
    rw [List.foldl_append, List.foldl_cons, List.foldl_nil]
    obtain ⟨h1, h2⟩ := ih
    constructor
    · rcases max_choice (l.foldl max x) a with h | h
      · rw [h]
        rcases List.mem_cons.1 h1 with h | h
        · rw [h]; simp
        · simp [h]
      · rw [h]; simp
    · intro y hy
      rcases List.mem_cons.1 hy with rfl | hy
      · exact (h2 _ (by simp)).trans (le_max_left _ _)
      · rcases List.mem_append.1 hy with hy | hy
        · exact (h2 _ (by simp [hy])).trans (le_max_left _ _)
        · rw [List.mem_singleton.1 hy]
          exact le_max_right _ _

theorem sum_bounds (l : List K) (a b : K) (h : ∀ y ∈ l, a ≤ y ∧ y ≤ b) : l.length * a ≤ l.sum ∧ l.sum ≤ l.length * b := by
  induction l with
  | nil => simp
  | cons x l ih =>
    obtain ⟨h1, h2⟩ := ih fun y hy => h y (by simp [hy])
    obtain ⟨h3, h4⟩ := h x (by simp)
    rw [List.length_cons, List.sum_cons]
    push_cast
    constructor <;> nlinarith

/-- C60: with two runs or more, the statistics of one size are the mean, the least and the greatest of all runs but the first, and the mean lies between the two, so
that no error bar is negative. -/
theorem C60_statistics (first second : K) (more : List K) :
    ∃ mean least greatest, sizeStatistics (some (first :: second :: more)) = .ok ⟨.fin mean, least, greatest, second :: more⟩ ∧
      mean * ((more.length : K) + 1) = second + more.sum ∧
      (least ∈ second :: more ∧ ∀ y ∈ second :: more, least ≤ y) ∧ (greatest ∈ second :: more ∧ ∀ y ∈ second :: more, y ≤ greatest) ∧
      least ≤ mean ∧ mean ≤ greatest := by
  have hmin := foldl_min_spec more second
  have hmax := foldl_max_spec more second
  have hlen : (0 : K) < (((second :: more).length : ℕ) : K) := by
    rw [List.length_cons]
    positivity
  refine ⟨(second :: more).sum / (((second :: more).length : ℕ) : K), _, _, ?_, ?_, hmin, hmax, ?_⟩
  · simp only [sizeStatistics, List.drop_one, List.tail_cons, runStatistics]
    congr 2
    change Ext.div _ _ = _
    simp only [Ext.div, if_neg hlen.ne']
  · have : (more.length : K) + 1 = (((second :: more).length : ℕ) : K) := by rw [List.length_cons]; push_cast; ring
    rw [this, div_mul_cancel₀ _ hlen.ne', List.sum_cons]
  · have := sum_bounds (second :: more) _ _ fun y hy => ⟨hmin.2 y hy, hmax.2 y hy⟩
    rw [le_div_iff₀ hlen, div_le_iff₀ hlen]
    constructor <;> [linarith [this.1]; linarith [this.2]]

theorem sizeStatistics_ok (r : Option (List K)) : (∃ s, sizeStatistics r = .ok s) ↔ ∃ a b l, r = some (a :: b :: l) := by
  constructor
  · rintro ⟨s, hs⟩
    match r with
    | none => simp [sizeStatistics, runStatistics] at hs
    | some [] => simp [sizeStatistics, runStatistics] at hs
    | some [a] => simp [sizeStatistics, runStatistics] at hs
    | some (a :: b :: l) => exact ⟨a, b, l, rfl⟩
  · rintro ⟨a, b, l, rfl⟩
    exact ⟨_, rfl⟩

theorem sizeStatistics_error (r : Option (List K)) (e : Err) (h : sizeStatistics r = .error e) : e = .valueError := by
  match r with
  | none => simpa [sizeStatistics, runStatistics, eq_comm] using h
  | some [] => simpa [sizeStatistics, runStatistics, eq_comm] using h
  | some [a] => simpa [sizeStatistics, runStatistics, eq_comm] using h
  | some (a :: b :: l) => simp [sizeStatistics, runStatistics] at h

theorem algorithmStatistics_cases (runs : ℕ → Option (List K)) (sizes : List ℕ) :
    ((∀ size ∈ sizes, ∃ a b l, runs size = some (a :: b :: l)) ∧ ∃ r, algorithmStatistics runs sizes = .ok r ∧ List.Forall₂ (fun size s => sizeStatistics (runs size) = .ok s) sizes r) ∨
      ((¬ ∀ size ∈ sizes, ∃ a b l, runs size = some (a :: b :: l)) ∧ algorithmStatistics runs sizes = .error .valueError) := by
  induction sizes with
  | nil => exact .inl ⟨by simp, [], rfl, .nil⟩
  | cons size sizes ih =>
    match hs : sizeStatistics (runs size) with
    | .error e =>
      have he := sizeStatistics_error _ _ hs
      subst he
      refine .inr ⟨fun h => ?_, by simp only [algorithmStatistics, hs]; rfl⟩
      obtain ⟨s, hs'⟩ := (sizeStatistics_ok _).2 (h size (by simp))
      rw [hs] at hs'
      cases hs'
    | .ok s =>
      have h0 := (sizeStatistics_ok (runs size)).1 ⟨s, hs⟩
      rcases ih with ⟨h, r, hr, hf⟩ | ⟨h, hr⟩
      · refine .inl ⟨fun x hx => ?_, s :: r, by simp only [algorithmStatistics, hs, hr]; rfl, .cons hs hf⟩
        rcases List.mem_cons.1 hx with rfl | hx
        · exact h0
        · exact h x hx
      · refine .inr ⟨fun h' => h fun x hx => h' x (by simp [hx]), by simp only [algorithmStatistics, hs, hr]; rfl⟩

/-- C60: the statistics are computed for every algorithm and size exactly if every algorithm has at least two runs for every size; in all other cases (also if just
one algorithm lacks one size) the script raises `ValueError`. -/
theorem C60_statistics_total (sizes : List ℕ) (data : List (String × (ℕ → Option (List K)))) :
    ((∀ p ∈ data, ∀ size ∈ sizes, ∃ a b l, p.2 size = some (a :: b :: l)) ∧
        ∃ r, timeStatistics sizes data = .ok r ∧
          List.Forall₂ (fun p q => q.1 = p.1 ∧ List.Forall₂ (fun size s => sizeStatistics (p.2 size) = .ok s) sizes q.2) data r) ∨
      ((¬ ∀ p ∈ data, ∀ size ∈ sizes, ∃ a b l, p.2 size = some (a :: b :: l)) ∧ timeStatistics sizes data = .error .valueError) := by
  induction data with
  | nil => exact .inl ⟨by simp, [], rfl, .nil⟩
  | cons p data ih =>
    obtain ⟨name, runs⟩ := p
    rcases algorithmStatistics_cases runs sizes with ⟨h, r, hr, hf⟩ | ⟨h, hr⟩
    · rcases ih with ⟨h', r', hr', hf'⟩ | ⟨h', hr'⟩
      · refine .inl ⟨fun q hq => ?_, (name, r) :: r', by simp only [timeStatistics, hr, hr']; rfl, .cons ⟨rfl, hf⟩ hf'⟩
        rcases List.mem_cons.1 hq with rfl | hq
        · exact h
        · exact h' q hq
      · exact .inr ⟨fun hh => h' fun q hq => hh q (by simp [hq]), by simp only [timeStatistics, hr, hr']; rfl⟩
    · exact .inr ⟨fun hh => h (hh (name, runs) (by simp)), by simp only [timeStatistics, hr]; rfl⟩

/-- Three runs, the first of which is slow. -/
example : sizeStatistics (some [(50 : ℚ), 2, 4]) = .ok ⟨.fin 3, 2, 4, [2, 4]⟩ := by
  simp only [sizeStatistics, List.drop_one, List.tail_cons, runStatistics]
  congr 2
  decide +kernel

end statistics

end Coreax
