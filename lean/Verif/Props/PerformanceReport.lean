import Verif.Model.PerformanceReport
import Verif.Props.Performance

/-!
# C85: the performance report
-/

set_option linter.unusedSectionVars false
set_option linter.unusedSimpArgs false

namespace Coreax

section
variable {K : Type} [Field K] [LinearOrder K] [IsStrictOrderedRing K] {N : Type} [LinearOrder N]

namespace Spec

/-- A section is left out if it has no items, otherwise it is the heading and the items. -/
def Part {L : Type} (heading : L) (items part : List L) : Prop := (items = [] ∧ part = []) ∨ (items ≠ [] ∧ part = heading :: items)

/-- The messages for a test: those that are reportable, that on compilation before that on execution. -/
def Messages (ttest : TTest K) (threshold : K) (now old : TestData K) (msgs : List (Timed × Direction)) : Prop :=
  msgs.Pairwise (fun a b => a.1 = .compilation ∧ b.1 = .execution) ∧ ∀ w dir, (w, dir) ∈ msgs ↔ Reportable ttest threshold now old w dir

/-- The names listed as missing. -/
def Missing (current historic : List (N × TestData K)) (ms : List N) : Prop :=
  ms.Nodup ∧ ∀ x, x ∈ ms ↔ x ∈ historic.map Prod.fst ∧ x ∉ current.map Prod.fst

/-- The tests listed as new, with their data. -/
def New (current historic : List (N × TestData K)) (ns : List (N × TestData K)) : Prop :=
  (ns.map Prod.fst).Nodup ∧ ∀ x, x ∈ ns ↔ x ∈ current ∧ x.1 ∉ historic.map Prod.fst

/-- The tests listed as changed (name, old data, new data, messages), in the order of their names. -/
def Changes (ttest : TTest K) (current historic : List (N × TestData K)) (cs : List (N × TestData K × TestData K × List (Timed × Direction))) : Prop :=
  (cs.map Prod.fst).Pairwise (· < ·) ∧ ∀ name old now msgs, (name, old, now, msgs) ∈ cs ↔
    (name, now) ∈ current ∧ (name, old) ∈ historic ∧ msgs ≠ [] ∧ Messages ttest (1 / 20 / (2 * matchedCount current historic : ℕ)) now old msgs

/-- The whole report. -/
def Report (ttest : TTest K) (current historic : List (N × TestData K)) (norm : K × K) (ms : List N) (ns : List (N × TestData K))
    (cs : List (N × TestData K × TestData K × List (Timed × Direction))) (lines : List (ReportLine N K)) : Prop :=
  Missing current historic ms ∧ New current historic ns ∧ Changes ttest current historic cs ∧
  ∃ M P C T, lines = M ++ P ++ C ++ T ∧
    Part .missingHeading (ms.map .missingItem) M ∧
    Part .newHeading (ns.map fun x => .newItem x.1 x.2) P ∧
    Part .changeHeading (cs.map fun x => .change x.1 x.2.1 x.2.2.1 x.2.2.2) C ∧
    (ms = [] ∧ ns = [] ∧ cs = [] ∧ T = [.noChange] ∨ (ns ≠ [] ∨ cs ≠ []) ∧ T = [.normalisation norm.1 norm.2] ∨ ms ≠ [] ∧ ns = [] ∧ cs = [] ∧ T = [])

end Spec

open Spec

theorem part_if {L A : Type} [DecidableEq A] (h : L) (items : List L) (src : List A) (hs : src = [] ↔ items = []) :
    Part h items (if src = [] then [] else h :: items) := by
  by_cases e : src = []
  · exact Or.inl ⟨hs.1 e, if_pos e⟩
  · exact Or.inr ⟨fun h => e (hs.2 h), if_neg e⟩

theorem last_cases {A B C L : Type} [DecidableEq A] [DecidableEq B] [DecidableEq C] (m : List A) (n : List B) (c : List C) (x y : L) :
    m = [] ∧ n = [] ∧ c = [] ∧ (if m = [] ∧ n = [] ∧ c = [] then [x] else if n ≠ [] ∨ c ≠ [] then [y] else []) = [x] ∨
    (n ≠ [] ∨ c ≠ []) ∧ (if m = [] ∧ n = [] ∧ c = [] then [x] else if n ≠ [] ∨ c ≠ [] then [y] else []) = [y] ∨
    m ≠ [] ∧ n = [] ∧ c = [] ∧ (if m = [] ∧ n = [] ∧ c = [] then [x] else if n ≠ [] ∨ c ≠ [] then [y] else []) = [] := by
  by_cases h1 : m = [] <;> by_cases h2 : n = [] <;> by_cases h3 : c = [] <;> simp [h1, h2, h3]

theorem lookupKey_ok {V : Type} {d : List (N × V)} (hd : (d.map Prod.fst).Nodup) {name : N} {v : V} (h : (name, v) ∈ d) : lookupKey d name = .ok v := by
  unfold lookupKey
  have : d.find? (fun h => decide (h.1 = name)) = some (name, v) := by
    induction d with
    | nil => simp at h
    | cons x xs ih =>
      rw [List.map_cons, List.nodup_cons] at hd
      rw [List.find?_cons]
      rcases List.mem_cons.1 h with rfl | h
      · simp
      · have : x.1 ≠ name := by
          rintro rfl
          exact hd.1 (List.mem_map.2 ⟨_, h, rfl⟩)
        simp only [this, decide_false]
        exact ih hd.2 h
  rw [this]

theorem newItems_ok {current : List (N × TestData K)} (hc : (current.map Prod.fst).Nodup) (names : List N) (h : ∀ x ∈ names, x ∈ current.map Prod.fst) :
    ∃ ns : List (N × TestData K), ns.map Prod.fst = names ∧ (∀ x ∈ ns, x ∈ current) ∧
      newItems current names = .ok (ns.map fun x => .newItem x.1 x.2) := by
  induction names with
  | nil => exact ⟨[], rfl, by simp, rfl⟩
  | cons a l ih =>
    obtain ⟨ns, h1, h2, h3⟩ := ih fun x hx => h x (List.mem_cons_of_mem _ hx)
    obtain ⟨⟨a', v⟩, hm, rfl⟩ := List.mem_map.1 (h a List.mem_cons_self)
    refine ⟨(a', v) :: ns, by simp [h1], ?_, ?_⟩
    · intro x hx
      rcases List.mem_cons.1 hx with rfl | hx
      exacts [hm, h2 x hx]
    · simp only [newItems, lookupKey_ok hc hm, h3, bind, Except.bind, List.map_cons]

theorem changeItems_ok {current historic : List (N × TestData K)} (hc : (current.map Prod.fst).Nodup) (hh : (historic.map Prod.fst).Nodup)
    (r : List (N × List (Timed × Direction))) (h : ∀ x ∈ r, x.1 ∈ current.map Prod.fst ∧ x.1 ∈ historic.map Prod.fst) :
    ∃ cs : List (N × TestData K × TestData K × List (Timed × Direction)), cs.map (fun c => (c.1, c.2.2.2)) = r ∧
      (∀ x ∈ cs, (x.1, x.2.2.1) ∈ current ∧ (x.1, x.2.1) ∈ historic) ∧
      changeItems current historic r = .ok (cs.map fun x => .change x.1 x.2.1 x.2.2.1 x.2.2.2) := by
  induction r with
  | nil => exact ⟨[], rfl, by simp, rfl⟩
  | cons a l ih =>
    obtain ⟨cs, h1, h2, h3⟩ := ih fun x hx => h x (List.mem_cons_of_mem _ hx)
    obtain ⟨name, msgs⟩ := a
    obtain ⟨hn, ho⟩ := h _ List.mem_cons_self
    obtain ⟨⟨_, v⟩, hm, rfl⟩ := List.mem_map.1 hn
    obtain ⟨⟨n', w⟩, hm', e⟩ := List.mem_map.1 ho
    dsimp only at e hm
    subst e
    refine ⟨(n', w, v, msgs) :: cs, by simp [h1], ?_, ?_⟩
    · intro x hx
      rcases List.mem_cons.1 hx with rfl | hx
      exacts [⟨hm, hm'⟩, h2 x hx]
    · simp only [changeItems, lookupKey_ok hc hm, lookupKey_ok hh hm', h3, bind, Except.bind, List.map_cons]

/-- The messages come in order. -/
theorem compareTest_order {ttest : TTest K} {threshold : K} {cur hist : TestData K} {m : List (Timed × Direction)}
    (h : compareTest ttest threshold cur hist = .ok m) : m.Pairwise (fun a b => a.1 = .compilation ∧ b.1 = .execution) := by
  unfold compareTest at h
  revert h
  cases compareMeans ttest threshold cur.compilationMean cur.compilationStd cur.numRuns hist.compilationMean hist.compilationStd hist.numRuns with
  | error e => simp [bind, Except.bind]
  | ok a =>
    cases compareMeans ttest threshold cur.executionMean cur.executionStd cur.numRuns hist.executionMean hist.executionStd hist.numRuns with
    | error e => simp [bind, Except.bind]
    | ok b =>
      simp only [bind, Except.bind, Except.ok.injEq]
      rintro rfl
      cases a <;> cases b <;> simp

theorem compareLoop_order {ttest : TTest K} {threshold : K} {l : List (N × TestData K × TestData K)} {r : List (N × List (Timed × Direction))}
    (h : compareLoop ttest threshold l = .ok r) : ∀ x ∈ r, x.2.Pairwise (fun a b => a.1 = .compilation ∧ b.1 = .execution) := by
  induction l generalizing r with
  | nil =>
    simp only [compareLoop, Except.ok.injEq] at h
    subst h; simp
  | cons x l ih =>
    obtain ⟨name, cur, hist⟩ := x
    simp only [compareLoop, bind, Except.bind] at h
    cases hm : compareTest ttest threshold cur hist with
    | error e => rw [hm] at h; simp at h
    | ok m =>
      cases hr : compareLoop ttest threshold l with
      | error e => rw [hm, hr] at h; simp at h
      | ok s =>
        rw [hm, hr] at h
        simp only [Except.ok.injEq] at h
        subst h
        intro x hx
        split_ifs at hx
        · exact ih hr x hx
        · rcases List.mem_cons.1 hx with rfl | hx
          · exact compareTest_order hm
          · exact ih hr x hx

theorem significant_order {ttest : TTest K} {current historic : List (N × TestData K)} {r : List (N × List (Timed × Direction))}
    (h : significantDifferences ttest current historic = .ok r) : ∀ x ∈ r, x.2.Pairwise (fun a b => a.1 = .compilation ∧ b.1 = .execution) := by
  unfold significantDifferences at h
  simp only at h
  split_ifs at h
  · simp only [Except.ok.injEq] at h
    subst h; simp
  · exact compareLoop_order h

/-- Ordered lists of messages with the same members are the same. -/
theorem messages_unique {a b : List (Timed × Direction)} (ha : a.Pairwise (fun a b => a.1 = .compilation ∧ b.1 = .execution))
    (hb : b.Pairwise (fun a b => a.1 = .compilation ∧ b.1 = .execution)) (h : ∀ x, x ∈ a ↔ x ∈ b) : a = b := by
  have nd : ∀ {l : List (Timed × Direction)}, l.Pairwise (fun a b => a.1 = .compilation ∧ b.1 = .execution) → l.Nodup := fun hl =>
    hl.imp fun {x y} hxy e => by subst e; rw [hxy.1] at hxy; simp at hxy
  refine ((List.perm_ext_iff_of_nodup (nd ha) (nd hb)).2 h).eq_of_pairwise (fun x y _ _ h1 h2 => ?_) ha hb
  rw [h1.1] at h2
  simp at h2

/-- C85: the report for good data.  It always succeeds, whatever the order in which the sets are gone through, and is as specified. -/
theorem C85_report {ttest : TTest K} (htest : TTestContract ttest) (perm perm' : List N → List N) (hp : ∀ l, (perm l).Perm l) (hp' : ∀ l, (perm' l).Perm l)
    (current historic : List (N × TestData K)) (norm : K × K)
    (hc : (current.map Prod.fst).Nodup) (hh : (historic.map Prod.fst).Nodup)
    (hgc : ∀ x ∈ current, GoodData x.2) (hgh : ∀ x ∈ historic, GoodData x.2) :
    ∃ lines ms ns cs, performanceReport ttest perm perm' current historic norm = .ok lines ∧ Report ttest current historic norm ms ns cs lines := by
  obtain ⟨r, er, hr1, hr2, hr3⟩ := C38_performance_report htest current historic hc hh hgc hgh
  have hord := significant_order er
  have memK : ∀ (a b : List (N × TestData K)) x, x ∈ keysMinus a b ↔ x ∈ a.map Prod.fst ∧ x ∉ b.map Prod.fst := fun a b x => by
    unfold keysMinus
    rw [List.mem_filter, decide_eq_true_eq]
  obtain ⟨ns, hns1, hns2, hns3⟩ := newItems_ok hc (perm' (keysMinus current historic)) fun x hx => ((memK _ _ x).1 ((hp' _).mem_iff.1 hx)).1
  set s := r.insertionSort fun a b => a.1 ≤ b.1 with hs
  have hsp : s.Perm r := List.perm_insertionSort _ _
  obtain ⟨cs, hcs1, hcs2, hcs3⟩ := changeItems_ok hc hh s fun x hx => by
    obtain ⟨-, -, cur, hist, h1, h2, -⟩ := hr2 x.1 x.2 (hsp.mem_iff.1 hx)
    exact ⟨List.mem_map.2 ⟨_, h1, rfl⟩, List.mem_map.2 ⟨_, h2, rfl⟩⟩
  have hmem : ∀ x msgs, (x, msgs) ∈ r ↔ ∃ old now, (x, old, now, msgs) ∈ cs := by
    intro x msgs
    rw [← hsp.mem_iff, ← hcs1, List.mem_map]
    constructor
    · rintro ⟨⟨a, b, c, d⟩, h, e⟩
      cases e
      exact ⟨_, _, h⟩
    · rintro ⟨old, now, h⟩
      exact ⟨_, h, rfl⟩
  have uniq : ∀ {l : List (N × TestData K)}, (l.map Prod.fst).Nodup → ∀ {x a b}, (x, a) ∈ l → (x, b) ∈ l → a = b := by
    intro l hl x a b h1 h2
    have e1 := lookupKey_ok hl h1
    rw [lookupKey_ok hl h2] at e1
    cases e1; rfl
  have hmiss : Missing current historic (perm (keysMinus historic current)) :=
    ⟨(hp _).nodup_iff.2 (hh.filter _), fun x => (hp _).mem_iff.trans (memK _ _ x)⟩
  have hnew : New current historic ns := by
    refine ⟨by rw [hns1]; exact (hp' _).nodup_iff.2 (hc.filter _), fun x => ⟨fun hx => ⟨hns2 x hx, ?_⟩, fun ⟨h1, h2⟩ => ?_⟩⟩
    · have : x.1 ∈ perm' (keysMinus current historic) := by rw [← hns1]; exact List.mem_map.2 ⟨_, hx, rfl⟩
      exact ((memK _ _ _).1 ((hp' _).mem_iff.1 this)).2
    · have : x.1 ∈ ns.map Prod.fst := by
        rw [hns1]; exact (hp' _).mem_iff.2 ((memK _ _ _).2 ⟨List.mem_map.2 ⟨_, h1, rfl⟩, h2⟩)
      obtain ⟨⟨a, b⟩, hy, e⟩ := List.mem_map.1 this
      obtain ⟨x1, x2⟩ := x
      cases e
      rw [uniq hc h1 (hns2 _ hy)]
      exact hy
  have hch : Changes ttest current historic cs := by
    constructor
    · have e : cs.map Prod.fst = s.map Prod.fst := by rw [← hcs1, List.map_map]; rfl
      rw [e]
      have h1 : (s.map Prod.fst).Pairwise (· ≤ ·) := by
        rw [List.pairwise_map, hs]
        have : Std.Total (fun a b : N × List (Timed × Direction) => a.1 ≤ b.1) := ⟨fun a b => le_total a.1 b.1⟩
        have : IsTrans (N × List (Timed × Direction)) (fun a b => a.1 ≤ b.1) := ⟨fun a b c => le_trans⟩
        exact List.pairwise_insertionSort _ _
      have h2 : (s.map Prod.fst).Nodup := (hsp.map _).nodup_iff.2 hr1
      exact (h1.and h2).imp fun h => lt_of_le_of_ne h.1 h.2
    · intro name old now msgs
      constructor
      · intro h
        obtain ⟨h1, h2⟩ := hcs2 _ h
        obtain ⟨a, -, c, d, e, f, g⟩ := hr2 name msgs ((hmem _ _).2 ⟨_, _, h⟩)
        dsimp only at h1 h2
        rw [uniq hc e h1, uniq hh f h2] at g
        exact ⟨h1, h2, a, hord _ ((hmem _ _).2 ⟨_, _, h⟩), g⟩
      · rintro ⟨h1, h2, h3, h4, h5⟩
        obtain ⟨⟨w, dir⟩, hwd⟩ := List.exists_mem_of_ne_nil msgs h3
        obtain ⟨m', hm', -⟩ := hr3 name now old w dir h1 h2 ((h5 w dir).1 hwd)
        obtain ⟨-, -, c, d, e, f, g⟩ := hr2 name m' hm'
        rw [uniq hc e h1, uniq hh f h2] at g
        have : m' = msgs := messages_unique (hord _ hm') h4 fun ⟨w, dir⟩ => (g w dir).trans (h5 w dir).symm
        subst this
        obtain ⟨o, n', hcm⟩ := (hmem _ _).1 hm'
        obtain ⟨q1, q2⟩ := hcs2 _ hcm
        dsimp only at q1 q2
        rw [uniq hc h1 q1, uniq hh h2 q2]
        exact hcm
  have hnil : ns = [] ↔ perm' (keysMinus current historic) = [] := by
    rw [← hns1, List.map_eq_nil_iff]
  have hrnil : cs = [] ↔ r = [] := by
    rw [← List.length_eq_zero_iff, ← List.length_eq_zero_iff (l := r), ← hsp.length_eq, ← hcs1, List.length_map]
  refine ⟨(if perm (keysMinus historic current) = [] then [] else .missingHeading :: (perm (keysMinus historic current)).map .missingItem) ++
      (if perm' (keysMinus current historic) = [] then [] else .newHeading :: ns.map fun x => .newItem x.1 x.2) ++
      (if r = [] then [] else .changeHeading :: cs.map fun x => .change x.1 x.2.1 x.2.2.1 x.2.2.2) ++
      (if perm (keysMinus historic current) = [] ∧ perm' (keysMinus current historic) = [] ∧ r = [] then [.noChange]
        else if perm' (keysMinus current historic) ≠ [] ∨ r ≠ [] then [.normalisation norm.1 norm.2] else []),
    perm (keysMinus historic current), ns, cs, ?_, hmiss, hnew, hch, _, _, _, _, rfl, ?_, ?_, ?_, ?_⟩
  · unfold performanceReport
    simp only [hns3, er, ← hs, hcs3, bind, Except.bind]
  · exact part_if _ _ _ (by rw [List.map_eq_nil_iff])
  · exact part_if _ _ _ (by rw [List.map_eq_nil_iff, hnil])
  · exact part_if _ _ _ (by rw [List.map_eq_nil_iff, hrnil])
  · simpa only [ne_eq, hnil, hrnil] using last_cases (perm (keysMinus historic current)) (perm' (keysMinus current historic)) r (ReportLine.noChange : ReportLine N K) (ReportLine.normalisation norm.1 norm.2)

/-! ### Uniqueness -/

theorem Part.unique {L : Type} {h : L} {i p p' : List L} (h1 : Part h i p) (h2 : Part h i p') : p = p' := by
  rcases h1 with ⟨a, b⟩ | ⟨a, b⟩ <;> rcases h2 with ⟨c, d⟩ | ⟨c, d⟩
  · rw [b, d]
  · exact absurd a c
  · exact absurd c a
  · rw [b, d]

theorem Part.mem {L : Type} {h : L} {i p : List L} (h1 : Part h i p) (x : L) : x ∈ p ↔ (i ≠ [] ∧ x = h) ∨ x ∈ i := by
  rcases h1 with ⟨a, b⟩ | ⟨a, b⟩
  · simp [a, b]
  · simp [a, b]

theorem Part.perm {L : Type} {h : L} {i i' p p' : List L} (hi : i.Perm i') (h1 : Part h i p) (h2 : Part h i' p') : p.Perm p' := by
  have hnil : i = [] ↔ i' = [] := by rw [← List.length_eq_zero_iff, ← List.length_eq_zero_iff (l := i'), hi.length_eq]
  rcases h1 with ⟨a, b⟩ | ⟨a, b⟩ <;> rcases h2 with ⟨c, d⟩ | ⟨c, d⟩
  · rw [b, d]
  · exact absurd (hnil.1 a) c
  · exact absurd (hnil.2 c) a
  · rw [b, d]; exact hi.cons _

theorem matchedCount_perm {c c' h h' : List (N × TestData K)} (hc : c.Perm c') (hh : h.Perm h') : matchedCount c h = matchedCount c' h' := by
  unfold matchedCount
  have : (fun x : N × TestData K => decide (x.1 ∈ h.map Prod.fst)) = fun x => decide (x.1 ∈ h'.map Prod.fst) := by
    funext x; exact decide_eq_decide.2 (hh.map _).mem_iff
  rw [this]
  exact (hc.filter _).length_eq

/-- The items of which the order is that of a Python set. -/
def Spec.setItem : ReportLine N K → Bool
  | .missingItem _ => true
  | .newItem _ _ => true
  | _ => false

/-- C85: two runs on the same data — listed in whatever order, and with whatever order of the sets — print the same parts; all but the items of the first two sections
are printed in the same order. -/
theorem C85_order {ttest : TTest K} {c c' h h' : List (N × TestData K)} (hc : c.Perm c') (hh : h.Perm h') {norm : K × K} {ms ms' ns ns' cs cs' l l'}
    (h1 : Report ttest c h norm ms ns cs l) (h2 : Report ttest c' h' norm ms' ns' cs' l') :
    ms.Perm ms' ∧ ns.Perm ns' ∧ cs = cs' ∧ l.Perm l' ∧ l.filter (fun x => !setItem x) = l'.filter fun x => !setItem x := by
  obtain ⟨⟨a1, a2⟩, ⟨b1, b2⟩, ⟨d1, d2⟩, M, P, C, T, rfl, e1, e2, e3, e4⟩ := h1
  obtain ⟨⟨a1', a2'⟩, ⟨b1', b2'⟩, ⟨d1', d2'⟩, M', P', C', T', rfl, e1', e2', e3', e4'⟩ := h2
  have hms : ms.Perm ms' := (List.perm_ext_iff_of_nodup a1 a1').2 fun x => by rw [a2, a2', (hc.map _).mem_iff, (hh.map _).mem_iff]
  have hns : ns.Perm ns' := (List.perm_ext_iff_of_nodup (List.Nodup.of_map _ b1) (List.Nodup.of_map _ b1')).2 fun x => by
    rw [b2, b2', hc.mem_iff, (hh.map _).mem_iff]
  have hcs : cs = cs' := by
    rw [List.pairwise_map] at d1 d1'
    have nd : ∀ {l : List (N × TestData K × TestData K × List (Timed × Direction))}, l.Pairwise (fun a b => a.1 < b.1) → l.Nodup := fun hl =>
      hl.imp fun {x y} hxy e => by subst e; exact lt_irrefl _ hxy
    refine ((List.perm_ext_iff_of_nodup (nd d1) (nd d1')).2 fun ⟨x, o, n, m⟩ => ?_).eq_of_pairwise (fun x y _ _ h1 h2 => absurd (h1.trans h2) (lt_irrefl _)) d1 d1'
    rw [d2, d2', hc.mem_iff, hh.mem_iff, matchedCount_perm hc hh]
  subst hcs
  have hnil : ∀ {A : Type} {i i' : List A}, i.Perm i' → (i = [] ↔ i' = []) := fun hi => by
    rw [← List.length_eq_zero_iff, hi.length_eq, List.length_eq_zero_iff]
  have hM : M.Perm M' := Part.perm (hms.map _) e1 e1'
  have hP : P.Perm P' := Part.perm (hns.map _) e2 e2'
  have hC : C = C' := Part.unique e3 e3'
  have hT : T = T' := by
    simp only [ne_eq, hnil hms, hnil hns] at e4 e4'
    rcases e4 with ⟨x1, x2, x3, x4⟩ | ⟨x1, x4⟩ | ⟨x1, x2, x3, x4⟩ <;> rcases e4' with ⟨y1, y2, y3, y4⟩ | ⟨y1, y4⟩ | ⟨y1, y2, y3, y4⟩ <;>
      first
      | exact x4.trans y4.symm
      | (exfalso; tauto)
  refine ⟨hms, hns, rfl, ((hM.append hP).append (by rw [hC])).append (by rw [hT]), ?_⟩
  have key : ∀ {hd : ReportLine N K} {i i' p p'}, setItem hd = false → (∀ x ∈ i, setItem x = true) → (∀ x ∈ i', setItem x = true) → (i = [] ↔ i' = []) →
      Part hd i p → Part hd i' p' → p.filter (fun x => !setItem x) = p'.filter fun x => !setItem x := by
    intro hd i i' p p' h0 hi hi' hn q q'
    have z : ∀ {i : List (ReportLine N K)}, (∀ x ∈ i, setItem x = true) → i.filter (fun x => !setItem x) = [] := fun hi =>
      List.filter_eq_nil_iff.2 fun x hx => by simp [hi x hx]
    rcases q with ⟨a, b⟩ | ⟨a, b⟩ <;> rcases q' with ⟨c, d⟩ | ⟨c, d⟩
    · rw [b, d]
    · exact absurd (hn.1 a) c
    · exact absurd (hn.2 c) a
    · rw [b, d, List.filter_cons_of_pos (by simp [h0]), List.filter_cons_of_pos (by simp [h0]), z hi, z hi']
  simp only [List.filter_append]
  rw [hC, hT, key rfl (by simp only [List.forall_mem_map]; exact fun _ _ => rfl) (by simp only [List.forall_mem_map]; exact fun _ _ => rfl) (hnil (hms.map _)) e1 e1', key rfl (by simp only [List.forall_mem_map]; exact fun _ _ => rfl) (by simp only [List.forall_mem_map]; exact fun _ _ => rfl) (hnil (hns.map _)) e2 e2']

/-- C85: the message that nothing changed is printed exactly if the two runs have the same tests and nothing is to be reported; then nothing else is printed.
The normalisation is printed exactly if some times are. -/
theorem C85_no_change {ttest : TTest K} {current historic : List (N × TestData K)} {norm : K × K} {ms ns cs lines}
    (hgc : ∀ x ∈ current, GoodData x.2) (hgh : ∀ x ∈ historic, GoodData x.2) (htest : TTestContract ttest) (h : Report ttest current historic norm ms ns cs lines) :
    (.noChange ∈ lines ↔ (∀ x, x ∈ current.map Prod.fst ↔ x ∈ historic.map Prod.fst) ∧
      ∀ name now old w dir, (name, now) ∈ current → (name, old) ∈ historic →
        ¬ Reportable ttest (1 / 20 / (2 * matchedCount current historic : ℕ)) now old w dir) ∧
    (.noChange ∈ lines → lines = [.noChange]) ∧
    ((∃ a b, .normalisation a b ∈ lines) ↔ (∃ x d, .newItem x d ∈ lines) ∨ ∃ x o d m, .change x o d m ∈ lines) ∧ lines ≠ [] := by
  obtain ⟨⟨a1, a2⟩, ⟨b1, b2⟩, ⟨d1, d2⟩, M, P, C, T, rfl, e1, e2, e3, e4⟩ := h
  have hms : ms = [] ↔ ∀ x, x ∈ historic.map Prod.fst → x ∈ current.map Prod.fst := by
    rw [List.eq_nil_iff_forall_not_mem]
    exact forall_congr' fun x => by rw [a2]; tauto
  have hns : ns = [] ↔ ∀ x, x ∈ current.map Prod.fst → x ∈ historic.map Prod.fst := by
    rw [List.eq_nil_iff_forall_not_mem]
    constructor
    · intro h x hx
      obtain ⟨y, hy, rfl⟩ := List.mem_map.1 hx
      by_contra hn
      exact h y ((b2 y).2 ⟨hy, hn⟩)
    · intro h x hx
      obtain ⟨h1, h2⟩ := (b2 x).1 hx
      exact h2 (h _ (List.mem_map.2 ⟨x, h1, rfl⟩))
  have hcs : cs = [] ↔ ∀ name now old w dir, (name, now) ∈ current → (name, old) ∈ historic →
        ¬ Reportable ttest (1 / 20 / (2 * matchedCount current historic : ℕ)) now old w dir := by
    rw [List.eq_nil_iff_forall_not_mem]
    constructor
    · intro h name now old w dir h1 h2 hr
      obtain ⟨msgs, hok, -, hm⟩ := compareTest_spec htest (1 / 20 / (2 * matchedCount current historic : ℕ)) (by
        have h0 : 1 ≤ matchedCount current historic := by
          unfold matchedCount
          exact List.length_pos_iff.2 (List.ne_nil_of_mem (List.mem_filter.2 ⟨h1, by simpa using ⟨_, h2⟩⟩))
        have h1 : (1 : K) ≤ ((2 * matchedCount current historic : ℕ) : K) := by
          exact_mod_cast (by omega : 1 ≤ 2 * matchedCount current historic)
        rw [div_le_one (by linarith)]
        linarith [show (1 : K) / 20 ≤ 1 by norm_num]) now old (hgc _ h1) (hgh _ h2)
      exact h (name, old, now, msgs) ((d2 _ _ _ _).2 ⟨h1, h2, List.ne_nil_of_mem ((hm w dir).2 hr), compareTest_order hok, hm⟩)
    · intro h ⟨name, old, now, msgs⟩ hx
      obtain ⟨h1, h2, h3, -, h4⟩ := (d2 _ _ _ _).1 hx
      obtain ⟨⟨w, dir⟩, hwd⟩ := List.exists_mem_of_ne_nil msgs h3
      exact h name now old w dir h1 h2 ((h4 w dir).1 hwd)
  have hM : ∀ x, x ∈ M ↔ (ms ≠ [] ∧ x = .missingHeading) ∨ ∃ n ∈ ms, .missingItem n = x := by
    intro x; rw [Part.mem e1]; simp [List.mem_map]
  have hP : ∀ x, x ∈ P ↔ (ns ≠ [] ∧ x = .newHeading) ∨ ∃ n ∈ ns, .newItem n.1 n.2 = x := by
    intro x; rw [Part.mem e2]; simp [List.mem_map]
  have hC : ∀ x, x ∈ C ↔ (cs ≠ [] ∧ x = .changeHeading) ∨ ∃ n ∈ cs, .change n.1 n.2.1 n.2.2.1 n.2.2.2 = x := by
    intro x; rw [Part.mem e3]; simp [List.mem_map]
  have hno : .noChange ∈ M ++ P ++ C ++ T ↔ ms = [] ∧ ns = [] ∧ cs = [] := by
    simp only [List.mem_append, hM, hP, hC, reduceCtorEq, and_false, exists_false, or_false, false_or, false_and]
    rcases e4 with ⟨x1, x2, x3, rfl⟩ | ⟨x1, rfl⟩ | ⟨x1, x2, x3, rfl⟩
    · simp [x1, x2, x3]
    · simp; tauto
    · simp [x1]
  have hnorm : (∃ a b, .normalisation a b ∈ M ++ P ++ C ++ T) ↔ ns ≠ [] ∨ cs ≠ [] := by
    simp only [List.mem_append, hM, hP, hC, reduceCtorEq, and_false, exists_false, or_false, false_or, false_and]
    rcases e4 with ⟨x1, x2, x3, rfl⟩ | ⟨x1, rfl⟩ | ⟨x1, x2, x3, rfl⟩
    · simp [x1, x2, x3]
    · simpa using x1
    · simp [x2, x3]
  refine ⟨by rw [hno, hms, hns, hcs, ← and_assoc]; exact and_congr_left' ⟨fun h x => ⟨h.2 x, h.1 x⟩, fun h => ⟨fun x => (h x).2, fun x => (h x).1⟩⟩, ?_, ?_, ?_⟩
  · rw [hno]
    rintro ⟨rfl, rfl, rfl⟩
    rcases e1 with ⟨-, rfl⟩ | ⟨h, -⟩
    · rcases e2 with ⟨-, rfl⟩ | ⟨h, -⟩
      · rcases e3 with ⟨-, rfl⟩ | ⟨h, -⟩
        · simpa using e4
        · exact absurd rfl h
      · exact absurd rfl h
    · exact absurd rfl h
  · rw [hnorm]
    have hT : ∀ x, x ∈ T → (x = .noChange ∨ ∃ a b, x = .normalisation a b) := by
      rcases e4 with ⟨x1, x2, x3, rfl⟩ | ⟨x1, rfl⟩ | ⟨x1, x2, x3, rfl⟩ <;> simp
    refine or_congr ⟨fun h => ?_, ?_⟩ ⟨fun h => ?_, ?_⟩
    · obtain ⟨x, hx⟩ := List.exists_mem_of_ne_nil ns h
      exact ⟨x.1, x.2, by simp only [List.mem_append]; exact Or.inl (Or.inl (Or.inr ((hP _).2 (Or.inr ⟨x, hx, rfl⟩))))⟩
    · rintro ⟨x, d, h⟩ rfl
      simp only [List.mem_append, hM, hP, hC, reduceCtorEq, and_false, exists_false, or_false, false_or, List.not_mem_nil, false_and] at h
      simpa using hT _ h
    · obtain ⟨x, hx⟩ := List.exists_mem_of_ne_nil cs h
      exact ⟨x.1, x.2.1, x.2.2.1, x.2.2.2, by simp only [List.mem_append]; exact Or.inl (Or.inr ((hC _).2 (Or.inr ⟨x, hx, rfl⟩)))⟩
    · rintro ⟨x, o, d, m, h⟩ rfl
      simp only [List.mem_append, hM, hP, hC, reduceCtorEq, and_false, exists_false, or_false, false_or, List.not_mem_nil, false_and] at h
      simpa using hT _ h
  · rcases e4 with ⟨x1, x2, x3, rfl⟩ | ⟨x1, rfl⟩ | ⟨x1, x2, x3, rfl⟩
    · simp
    · simp
    · have : .missingHeading ∈ M := (hM _).2 (Or.inl ⟨x1, rfl⟩)
      intro h
      simp only [List.append_eq_nil_iff] at h
      rw [h.1.1.1] at this
      simp at this

/-! ### Errors -/

/-- A negative mean in either of two data sets. -/
def Spec.Negative (a b : TestData K) : Prop := ∃ w, Ext.lt (a.mean w) (Ext.fin 0) = true ∨ Ext.lt (b.mean w) (Ext.fin 0) = true

theorem compareMeans_error (ttest : TTest K) (threshold : K) (m1 s1 : Ext K) (n1 : ℕ) (m2 s2 : Ext K) (n2 : ℕ) :
    (Ext.lt m1 (Ext.fin 0) = true ∨ Ext.lt m2 (Ext.fin 0) = true → compareMeans ttest threshold m1 s1 n1 m2 s2 n2 = .error .valueError) ∧
    (¬ (Ext.lt m1 (Ext.fin 0) = true ∨ Ext.lt m2 (Ext.fin 0) = true) → ∃ r, compareMeans ttest threshold m1 s1 n1 m2 s2 n2 = .ok r) := by
  unfold compareMeans relativeChange
  constructor
  · intro h
    have : (Ext.lt m2 (Ext.fin 0) || Ext.lt m1 (Ext.fin 0)) = true := by simpa [or_comm] using h
    simp only [this, if_true, bind, Except.bind]
  · intro h
    have : (Ext.lt m2 (Ext.fin 0) || Ext.lt m1 (Ext.fin 0)) = false := by rw [← Bool.not_eq_true]; simpa [or_comm] using h
    simp only [this, Bool.false_eq_true, if_false]
    split_ifs <;> simp only [bind, Except.bind] <;> split_ifs <;> exact ⟨_, rfl⟩

theorem compareTest_error (ttest : TTest K) (threshold : K) (a b : TestData K) :
    (Negative a b → compareTest ttest threshold a b = .error .valueError) ∧ (¬ Negative a b → ∃ r, compareTest ttest threshold a b = .ok r) := by
  obtain ⟨c1, c2⟩ := compareMeans_error ttest threshold a.compilationMean a.compilationStd a.numRuns b.compilationMean b.compilationStd b.numRuns
  obtain ⟨e1, e2⟩ := compareMeans_error ttest threshold a.executionMean a.executionStd a.numRuns b.executionMean b.executionStd b.numRuns
  unfold compareTest
  constructor
  · rintro ⟨w, h⟩
    by_cases hc : Ext.lt a.compilationMean (Ext.fin 0) = true ∨ Ext.lt b.compilationMean (Ext.fin 0) = true
    · simp only [c1 hc, bind, Except.bind]
    · obtain ⟨r, hr⟩ := c2 hc
      cases w
      · exact absurd h hc
      · simp only [hr, e1 h, bind, Except.bind]
  · intro h
    obtain ⟨r, hr⟩ := c2 fun hc => h ⟨.compilation, hc⟩
    obtain ⟨r', hr'⟩ := e2 fun hc => h ⟨.execution, hc⟩
    exact ⟨_, by simp only [hr, hr', bind, Except.bind]; rfl⟩

theorem compareLoop_error (ttest : TTest K) (threshold : K) (l : List (N × TestData K × TestData K)) :
    ((∃ x ∈ l, Negative x.2.1 x.2.2) → compareLoop ttest threshold l = .error .valueError) ∧
    ((¬ ∃ x ∈ l, Negative x.2.1 x.2.2) → ∃ r, compareLoop ttest threshold l = .ok r ∧ ∀ y ∈ r, y.1 ∈ l.map Prod.fst) := by
  induction l with
  | nil => exact ⟨by simp, fun _ => ⟨[], rfl, by simp⟩⟩
  | cons x l ih =>
    obtain ⟨name, a, b⟩ := x
    obtain ⟨t1, t2⟩ := compareTest_error ttest threshold a b
    constructor
    · rintro ⟨y, hy, hneg⟩
      by_cases hn : Negative a b
      · simp only [compareLoop, t1 hn, bind, Except.bind]
      · obtain ⟨r, hr⟩ := t2 hn
        rcases List.mem_cons.1 hy with rfl | hy
        · exact absurd hneg hn
        · simp only [compareLoop, hr, ih.1 ⟨y, hy, hneg⟩, bind, Except.bind]
    · intro h
      obtain ⟨r, hr⟩ := t2 fun hn => h ⟨_, List.mem_cons_self, hn⟩
      obtain ⟨s, hs, hs'⟩ := ih.2 fun ⟨y, hy, hn⟩ => h ⟨y, List.mem_cons_of_mem _ hy, hn⟩
      refine ⟨_, by simp only [compareLoop, hr, hs, bind, Except.bind]; rfl, fun y hy => ?_⟩
      split_ifs at hy
      · exact List.mem_map.2 (by obtain ⟨z, hz, e⟩ := List.mem_map.1 (hs' y hy); exact ⟨z, List.mem_cons_of_mem _ hz, e⟩)
      · rcases List.mem_cons.1 hy with rfl | hy
        · exact List.mem_map.2 ⟨_, List.mem_cons_self, rfl⟩
        · exact List.mem_map.2 (by obtain ⟨z, hz, e⟩ := List.mem_map.1 (hs' y hy); exact ⟨z, List.mem_cons_of_mem _ hz, e⟩)

/-- C85: for all data, NaN and infinities included: the only error is `ValueError`, and it is raised exactly if a test with data on both sides has a negative mean;
no key is ever looked up in vain, and the normalisation of the historic data, which is set to zero in the first run, is not needed. -/
theorem C85_error (ttest : TTest K) (perm perm' : List N → List N) (hp' : ∀ l, (perm' l).Perm l) (current historic : List (N × TestData K)) (norm : K × K)
    (hc : (current.map Prod.fst).Nodup) (hh : (historic.map Prod.fst).Nodup) :
    ((∃ name now old, (name, now) ∈ current ∧ (name, old) ∈ historic ∧ Negative now old) →
      performanceReport ttest perm perm' current historic norm = .error (.library .valueError)) ∧
    ((¬ ∃ name now old, (name, now) ∈ current ∧ (name, old) ∈ historic ∧ Negative now old) →
      ∃ lines, performanceReport ttest perm perm' current historic norm = .ok lines) := by
  have hdef : significantDifferences ttest current historic = if matchedTests current historic = [] then .ok []
      else compareLoop ttest (5 / 100 / ((matchedTests current historic).length * 2)) (matchedTests current historic) := rfl
  obtain ⟨l1, l2⟩ := compareLoop_error ttest (5 / 100 / (((matchedTests current historic).length : K) * 2)) (matchedTests current historic)
  obtain ⟨ns, -, -, hns⟩ := newItems_ok hc (perm' (keysMinus current historic)) fun x hx => by
    have := (hp' _).mem_iff.1 hx
    unfold keysMinus at this
    exact (List.mem_filter.1 this).1
  constructor
  · rintro ⟨name, now, old, h1, h2, h3⟩
    have hm := (mem_matchedTests hh name now old).2 ⟨h1, h2⟩
    have : significantDifferences ttest current historic = .error .valueError := by
      rw [hdef, if_neg (List.ne_nil_of_mem hm), l1 ⟨_, hm, h3⟩]
    unfold performanceReport
    simp only [hns, this, bind, Except.bind]
  · intro h
    have : ∃ r, significantDifferences ttest current historic = .ok r ∧ ∀ y ∈ r, y.1 ∈ (matchedTests current historic).map Prod.fst := by
      by_cases hm : matchedTests current historic = []
      · exact ⟨[], by rw [hdef, if_pos hm], by simp⟩
      · obtain ⟨r, hr, hr'⟩ := l2 fun ⟨⟨x, a, b⟩, hx, hn⟩ => h ⟨x, a, b, ((mem_matchedTests hh x a b).1 hx).1, ((mem_matchedTests hh x a b).1 hx).2, hn⟩
        exact ⟨r, by rw [hdef, if_neg hm, hr], hr'⟩
    obtain ⟨r, hr, hr'⟩ := this
    obtain ⟨cs, -, -, hcs⟩ := changeItems_ok hc hh (r.insertionSort fun a b => a.1 ≤ b.1) fun x hx => by
      obtain ⟨⟨n, a, b⟩, hz, e⟩ := List.mem_map.1 (hr' x ((List.perm_insertionSort _ _).mem_iff.1 hx))
      obtain ⟨q1, q2⟩ := (mem_matchedTests hh n a b).1 hz
      dsimp only at e
      rw [← e]
      exact ⟨List.mem_map.2 ⟨_, q1, rfl⟩, List.mem_map.2 ⟨_, q2, rfl⟩⟩
    unfold performanceReport
    simp only [hns, hr, hcs, bind, Except.bind]
    exact ⟨_, rfl⟩

/-- C85: the first run, without historic data: every test is listed as new, and then the normalisation. -/
theorem C85_first_run (ttest : TTest K) (current : List (N × TestData K)) (norm : K × K) (hc : (current.map Prod.fst).Nodup) (hne : current ≠ []) :
    performanceReport ttest id id current [] norm = .ok (.newHeading :: current.map (fun x => .newItem x.1 x.2) ++ [.normalisation norm.1 norm.2]) := by
  have hk : keysMinus current ([] : List (N × TestData K)) = current.map Prod.fst := by simp [keysMinus]
  have hk' : keysMinus ([] : List (N × TestData K)) current = [] := rfl
  obtain ⟨ns, h1, h2, h3⟩ := newItems_ok hc (current.map Prod.fst) fun _ h => h
  have hns : ns = current := by
    have : ∀ {a b : List (N × TestData K)}, a.map Prod.fst = b.map Prod.fst → (b.map Prod.fst).Nodup → (∀ x ∈ a, x ∈ b) → a = b := by
      intro a b
      induction a generalizing b with
      | nil => intro e _ _; cases b <;> simp_all
      | cons x a ih =>
        intro e hb h
        cases b with
        | nil => simp at e
        | cons y b =>
          rw [List.map_cons, List.map_cons, List.cons.injEq] at e
          rw [List.map_cons, List.nodup_cons] at hb
          have hxy : x = y := by
            rcases List.mem_cons.1 (h x List.mem_cons_self) with h' | h'
            · exact h'
            · exact absurd (by rw [← e.1]; exact List.mem_map.2 ⟨x, h', rfl⟩) hb.1
          subst hxy
          rw [ih e.2 hb.2 fun z hz => ?_]
          rcases List.mem_cons.1 (h z (List.mem_cons_of_mem _ hz)) with h' | h'
          · exact absurd (by rw [← e.2]; exact List.mem_map.2 ⟨z, hz, by rw [h']⟩) hb.1
          · exact h'
    exact this h1 hc h2
  have hs : significantDifferences ttest current [] = .ok [] := by simp [significantDifferences]
  have hnil : current.map Prod.fst ≠ [] := by simpa using hne
  subst hns
  unfold performanceReport
  simp only [hk, hk', id, h3, hs, bind, Except.bind, List.insertionSort, changeItems, if_true, if_neg hnil, hnil, false_and, and_false, if_false, ne_eq, not_false_eq_true, true_or,
    List.nil_append, List.append_nil, List.foldr]

end

/-! ### Examples -/

deriving instance DecidableEq for TestData
deriving instance DecidableEq for ReportLine

/-- Two tests on both sides, of which one changed; one missing, one new. -/
def exampleNow : List (ℕ × TestData ℚ) :=
  [(3, ⟨.fin 1, .fin 3, .fin 1, .fin 1, 10⟩), (1, ⟨.fin 1, .fin 2, .fin 1, .fin 1, 10⟩), (7, ⟨.fin 5, .fin 2, .fin 1, .fin 1, 10⟩)]
/-- The data before. -/
def exampleBefore : List (ℕ × TestData ℚ) :=
  [(1, ⟨.fin 2, .fin 1, .fin 1, .fin 1, 10⟩), (3, ⟨.fin 1, .fin 2, .fin 1, .fin 1, 10⟩), (9, ⟨.fin 1, .fin 2, .fin 1, .fin 1, 10⟩)]

theorem exampleNow_good : ∀ x ∈ exampleNow, Spec.GoodData x.2 := by
  simp only [exampleNow, List.mem_cons, List.not_mem_nil, or_false, forall_eq_or_imp, forall_eq]
  refine ⟨?_, ?_, ?_⟩ <;> intro w <;> cases w <;> exact ⟨_, by norm_num, rfl⟩
theorem exampleBefore_good : ∀ x ∈ exampleBefore, Spec.GoodData x.2 := by
  simp only [exampleBefore, List.mem_cons, List.not_mem_nil, or_false, forall_eq_or_imp, forall_eq]
  refine ⟨?_, ?_, ?_⟩ <;> intro w <;> cases w <;> exact ⟨_, by norm_num, rfl⟩

example : performanceReport exampleTTest id id exampleNow exampleBefore (3, 4) = .ok
    [.missingHeading, .missingItem 9, .newHeading, .newItem 7 ⟨.fin 5, .fin 2, .fin 1, .fin 1, 10⟩, .changeHeading,
      .change 1 ⟨.fin 2, .fin 1, .fin 1, .fin 1, 10⟩ ⟨.fin 1, .fin 2, .fin 1, .fin 1, 10⟩ [(.compilation, .decrease), (.execution, .increase)],
      .change 3 ⟨.fin 1, .fin 2, .fin 1, .fin 1, 10⟩ ⟨.fin 1, .fin 3, .fin 1, .fin 1, 10⟩ [(.execution, .increase)],
      .normalisation 3 4] := by
  decide +kernel

example := C85_report exampleTTest_contract id List.reverse (fun _ => .refl _) List.reverse_perm exampleNow exampleBefore (3, 4) (by decide) (by decide) exampleNow_good exampleBefore_good

/-- The order of the lists and of the sets is of no account. -/
example {ms ms' ns ns' cs cs' l l'} (h1 : Spec.Report exampleTTest exampleNow exampleBefore (3, 4) ms ns cs l)
    (h2 : Spec.Report exampleTTest exampleNow.reverse exampleBefore (3, 4) ms' ns' cs' l') : l.Perm l' :=
  (C85_order (List.reverse_perm _).symm (.refl _) h1 h2).2.2.2.1

example {ms ns cs l} (h : Spec.Report exampleTTest exampleNow exampleNow (3, 4) ms ns cs l) :=
  C85_no_change exampleNow_good exampleNow_good exampleTTest_contract h

example := C85_first_run exampleTTest exampleNow (3, 4) (by decide) (by decide)

/-- A negative mean. -/
example : performanceReport exampleTTest id id exampleNow [(3, (⟨.fin (-1), .fin 2, .fin 1, .fin 1, 10⟩ : TestData ℚ))] (3, 4) = .error (.library .valueError) :=
  (C85_error exampleTTest id id (fun _ => .refl _) _ _ _ (by decide) (by decide)).1
    ⟨3, _, _, List.mem_cons_self, List.mem_cons_self, .compilation, Or.inr (by decide +kernel)⟩

end Coreax
