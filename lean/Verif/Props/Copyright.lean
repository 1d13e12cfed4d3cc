import Verif.Model.Scripts
import Mathlib.Data.List.Infix
import Mathlib.Data.List.TakeWhile
import Mathlib.Tactic.Linarith

/-!
# C39: the copyright hook
-/

set_option linter.unusedSectionVars false

namespace Coreax

/-- Where `str.splitlines` ends a line (documentation of python): line feed, vertical tab, form feed, carriage return, the separators of files, groups
and records, next line, and the separators of lines and of paragraphs. -/
def Spec.lineEnd (c : Char) : Bool :=
  (0x0a ≤ c.toNat ∧ c.toNat ≤ 0x0d) ∨ (0x1c ≤ c.toNat ∧ c.toNat ≤ 0x1e) ∨ c.toNat = 0x85 ∨ c.toNat = 0x2028 ∨ c.toNat = 0x2029

theorem isBreak_eq (c : Char) : isBreak c = Spec.lineEnd c := by
  have key : ∀ d : Char, c = d ↔ c.toNat = d.toNat := fun d => ⟨fun h => by rw [h], fun h => Char.ext (UInt32.toNat_inj.1 h)⟩
  unfold isBreak Spec.lineEnd
  simp only [List.mem_cons, List.not_mem_nil, or_false, key]
  apply decide_eq_decide.2
  change (c.toNat = 10 ∨ c.toNat = 13 ∨ c.toNat = 11 ∨ c.toNat = 12 ∨ c.toNat = 28 ∨ c.toNat = 29 ∨ c.toNat = 30 ∨ c.toNat = 133 ∨ c.toNat = 8232 ∨ c.toNat = 8233) ↔ _
  omega

/-- `first` is the first line of `first ++ rest`, its boundary included. -/
def Spec.IsFirstLine (first rest : List Char) : Prop :=
  ((∀ c ∈ first, Spec.lineEnd c = false) ∧ rest = []) ∨ ∃ l b, first = l ++ [b] ∧ Spec.lineEnd b = true ∧ ∀ c ∈ l, Spec.lineEnd c = false

/-- What the documentation of the hook asks for: empty files pass; otherwise the notice stands at the start, or after the first line if that begins with `#!`. -/
def Spec.HasNotice (template content : List Char) : Prop :=
  content = [] ∨ (¬ ['#', '!'] <+: content ∧ template <+: content) ∨
    (['#', '!'] <+: content ∧ ∃ first rest, content = first ++ rest ∧ Spec.IsFirstLine first rest ∧ template <+: rest)

section lines

theorem splitLines_flatten (s : List Char) : (splitLines s).flatten = s := by
  induction s with
  | nil => rfl
  | cons c s ih =>
    unfold splitLines
    split_ifs
    · simp [ih]
    · cases h : splitLines s with
      | nil => rw [h] at ih; simp at ih; simp [ih]
      | cons l ls => rw [h] at ih; simp at ih; simp [ih]

theorem splitLines_ne_nil (s : List Char) : ∀ l ∈ splitLines s, l ≠ [] := by
  induction s with
  | nil => simp [splitLines]
  | cons c s ih =>
    unfold splitLines
    split_ifs
    · intro l hl
      rcases List.mem_cons.1 hl with rfl | hl
      · simp
      · exact ih l hl
    · cases h : splitLines s with
      | nil => simp
      | cons l ls =>
        rw [h] at ih
        intro m hm
        rcases List.mem_cons.1 hm with rfl | hm
        · simp
        · exact ih m (List.mem_cons_of_mem _ hm)

/-- The first line and the rest. -/
theorem splitLines_first (s : List Char) (hs : s ≠ []) :
    s = (splitLines s).headD [] ++ ((splitLines s).drop 1).flatten ∧
    Spec.IsFirstLine ((splitLines s).headD []) ((splitLines s).drop 1).flatten := by
  constructor
  · conv_lhs => rw [← splitLines_flatten s]
    cases h : splitLines s with
    | nil => simp
    | cons l ls => simp
  · induction s with
    | nil => exact absurd rfl hs
    | cons c s ih =>
      unfold splitLines
      by_cases hb : Spec.lineEnd c = true
      · simp only [isBreak_eq, hb, if_true]
        exact Or.inr ⟨[], c, rfl, hb, by simp⟩
      · simp only [isBreak_eq, hb, Bool.false_eq_true, if_false]
        have hb' : Spec.lineEnd c = false := by simpa using hb
        cases h : splitLines s with
        | nil =>
          refine Or.inl ⟨?_, by simp⟩
          intro d hd
          simp at hd
          rw [hd]; exact hb'
        | cons l ls =>
          have hne : s ≠ [] := by rintro rfl; simp [splitLines] at h
          have := ih hne
          rw [h] at this
          simp only [List.headD_cons, List.drop_one, List.tail_cons] at this ⊢
          rcases this with ⟨h1, h2⟩ | ⟨l', b, e, hb2, h1⟩
          · refine Or.inl ⟨?_, h2⟩
            intro d hd
            rcases List.mem_cons.1 hd with rfl | hd
            · exact hb'
            · exact h1 d hd
          · refine Or.inr ⟨c :: l', b, by rw [e]; rfl, hb2, ?_⟩
            intro d hd
            rcases List.mem_cons.1 hd with rfl | hd
            · exact hb'
            · exact h1 d hd

/-- The split into first line and rest is unique. -/
theorem Spec.IsFirstLine.unique {f r f' r' : List Char} (h : Spec.IsFirstLine f r) (h' : Spec.IsFirstLine f' r') (e : f ++ r = f' ++ r') :
    f = f' ∧ r = r' := by
  have key : ∀ {f r f' r' : List Char}, Spec.IsFirstLine f r → Spec.IsFirstLine f' r' → f ++ r = f' ++ r' → f.length ≤ f'.length := by
    intro f r f' r' h h' e
    by_contra hc
    push Not at hc
    have hpre : f' <+: f := by
      refine List.prefix_of_prefix_length_le (l₃ := f ++ r) (by rw [e]; exact List.prefix_append _ _) (List.prefix_append _ _) hc.le
    obtain ⟨t, rfl⟩ := hpre
    have ht : t ≠ [] := by rintro rfl; simp at hc
    rcases h' with ⟨-, rfl⟩ | ⟨l, b, rfl, hb, -⟩
    · simp at e
      exact ht e.1
    · rcases h with ⟨h1, -⟩ | ⟨l', b', e', -, h1⟩
      · have := h1 b (by simp)
        rw [hb] at this; simp at this
      · obtain ⟨t', b'', rfl⟩ := (List.eq_nil_or_concat t).resolve_left ht
        rw [List.concat_eq_append, ← List.append_assoc] at e'
        have := (List.append_inj' e' rfl).1
        have := h1 b (by rw [← this]; simp)
        rw [hb] at this; simp at this
  have hlen := Nat.le_antisymm (key h h' e) (key h' h e.symm)
  exact List.append_inj e hlen

theorem shebang_first (s : List Char) (hs : s ≠ []) : ['#', '!'] <+: (splitLines s).headD [] ↔ ['#', '!'] <+: s := by
  obtain ⟨h1, h2⟩ := splitLines_first s hs
  constructor
  · intro h
    rw [h1]
    exact h.trans (List.prefix_append _ _)
  · rintro ⟨t, rfl⟩
    refine List.prefix_of_prefix_length_le (List.prefix_append ['#', '!'] t) ?_ ?_
    · conv_rhs => rw [h1]
      exact List.prefix_append _ _
    · by_contra hc
      push Not at hc
      simp only [List.length_cons, List.length_nil] at hc
      generalize (splitLines (['#', '!'] ++ t)).headD [] = f at *
      generalize ((splitLines (['#', '!'] ++ t)).drop 1).flatten = r at *
      rcases f with _ | ⟨a, _ | ⟨b, f⟩⟩
      · rcases h2 with ⟨-, rfl⟩ | ⟨l, b, e, -⟩
        · simp at h1
        · simp at e
      · simp at h1
        rcases h2 with ⟨-, rfl⟩ | ⟨l, b, e, hb, -⟩
        · simp at h1
        · have : b = a := by
            rcases l with _ | ⟨x, l⟩
            · simpa using e.symm
            · simp at e
          rw [this, ← h1.1] at hb
          revert hb; decide
      · simp at hc; omega

end lines

section newlines

theorem decode_no_cr (s : List Char) : '\r' ∉ decodeNewlines s := by
  induction s using decodeNewlines.induct with
  | case1 => simp [decodeNewlines]
  | case2 s ih => simp [decodeNewlines, ih]
  | case3 s h ih =>
    rw [decodeNewlines.eq_3 _ h]
    simp [ih]
  | case4 c s h1 h2 ih =>
    rw [decodeNewlines.eq_4 _ _ h1 h2]
    simp only [List.mem_cons, not_or]
    exact ⟨fun hc => h2 hc.symm, ih⟩

theorem decode_cons (c : Char) (s : List Char) (h : c ≠ '\r') : decodeNewlines (c :: s) = c :: decodeNewlines s := by
  apply decodeNewlines.eq_4
  · intro s' hc; exact fun _ => h hc
  · exact h

theorem decode_of_no_cr (s : List Char) (h : '\r' ∉ s) : decodeNewlines s = s := by
  induction s with
  | nil => rfl
  | cons c s ih =>
    rw [List.mem_cons, not_or] at h
    rw [decode_cons c s (Ne.symm h.1), ih h.2]

theorem decode_eq_nil (s : List Char) : decodeNewlines s = [] ↔ s = [] := by
  constructor
  · intro h
    rcases s with _ | ⟨c, s⟩
    · rfl
    · exfalso
      by_cases hc : c = '\r'
      · subst hc
        rcases s with _ | ⟨d, s⟩
        · simp [decodeNewlines] at h
        · by_cases hd : d = '\n'
          · subst hd; simp [decodeNewlines] at h
          · rw [decodeNewlines.eq_3 _ (by intro s' e; cases e; exact hd rfl)] at h; simp at h
      · rw [decode_cons c s hc] at h; simp at h
  · rintro rfl; rfl

/-- Reading back what was written. -/
theorem decode_encode (nl : Newline) (s : List Char) (h : '\r' ∉ s) : decodeNewlines (encodeNewlines nl s) = s := by
  cases nl with
  | lf => exact decode_of_no_cr s h
  | crlf =>
    induction s with
    | nil => rfl
    | cons c s ih =>
      rw [List.mem_cons, not_or] at h
      have ih' : decodeNewlines (s.flatMap fun c => if c = '\n' then ['\r', '\n'] else [c]) = s := ih h.2
      show decodeNewlines ((c :: s).flatMap fun c => if c = '\n' then ['\r', '\n'] else [c]) = _
      rw [List.flatMap_cons]
      by_cases hc : c = '\n'
      · subst hc
        simp only [if_true, List.cons_append, List.nil_append]
        rw [decodeNewlines.eq_2, ih']
      · simp only [hc, if_false, List.cons_append, List.nil_append]
        rw [decode_cons c _ (Ne.symm h.1), ih']

end newlines

section hook
variable (template : List Char)

/-- The loop that is to skip blank lines never skips any, because lines are never empty. -/
theorem skip_nothing (s : List Char) : ((splitLines s).drop 1).dropWhile (fun l => l.isEmpty) = (splitLines s).drop 1 := by
  cases h : (splitLines s).drop 1 with
  | nil => rfl
  | cons l ls =>
    have : l ≠ [] := splitLines_ne_nil s l (List.mem_of_mem_drop (i := 1) (by rw [h]; exact List.mem_cons_self))
    rw [List.dropWhile_cons, if_neg (by simpa using this)]

/-- C39: a file passes exactly if it has the notice where the documentation asks for it. -/
theorem C39_check_iff (fix : Bool) (raw : List Char) :
    (checkFile template fix raw).1 = false ↔ Spec.HasNotice template (decodeNewlines raw) := by
  unfold checkFile Spec.HasNotice
  simp only
  by_cases h0 : decodeNewlines raw = []
  · simp [h0]
  · rw [if_neg h0]
    simp only [h0, false_or, skip_nothing]
    obtain ⟨h1, h2⟩ := splitLines_first _ h0
    have hsb := shebang_first _ h0
    by_cases hs : ['#', '!'] <+: decodeNewlines raw
    · have hs' : decide (shebang <+: (splitLines (decodeNewlines raw)).headD []) = true := decide_eq_true (hsb.2 hs)
      simp only [hs', if_true, hs, not_true_eq_false, false_and, false_or, true_and]
      have : (∃ first rest, decodeNewlines raw = first ++ rest ∧ Spec.IsFirstLine first rest ∧ template <+: rest) ↔
          template <+: ((splitLines (decodeNewlines raw)).drop 1).flatten := by
        constructor
        · rintro ⟨f, r, e, hf, ht⟩
          obtain ⟨-, er⟩ := hf.unique h2 (by rw [← e, ← h1])
          rw [← er]; exact ht
        · exact fun h => ⟨_, _, h1, h2, h⟩
      rw [this]
      by_cases ht : template <+: ((splitLines (decodeNewlines raw)).drop 1).flatten
      · rw [if_pos ht]; exact ⟨fun _ => ht, fun _ => rfl⟩
      · rw [if_neg ht]; exact ⟨fun hc => by cases fix <;> exact absurd hc (by simp), fun hc => absurd hc ht⟩
    · have hs' : decide (shebang <+: (splitLines (decodeNewlines raw)).headD []) = false := decide_eq_false (fun h => hs (hsb.1 h))
      simp only [hs', Bool.false_eq_true, if_false, hs, not_false_eq_true, true_and, false_and, or_false]
      by_cases ht : template <+: decodeNewlines raw
      · rw [if_pos ht]; exact ⟨fun _ => ht, fun _ => rfl⟩
      · rw [if_neg ht]; exact ⟨fun hc => by cases fix <;> exact absurd hc (by simp), fun hc => absurd hc ht⟩

/-- The decision and the result, with the loop removed. -/
theorem checkFile_cases (fix : Bool) (raw : List Char) :
    checkFile template fix raw = (false, raw) ∨
    (fix = false ∧ checkFile template fix raw = (true, raw)) ∨
    (decodeNewlines raw ≠ [] ∧ fix = true ∧ checkFile template fix raw = (true, encodeNewlines (guessNewline raw)
      (if decide (shebang <+: (splitLines (decodeNewlines raw)).headD []) = true then
        (splitLines (decodeNewlines raw)).headD [] ++ ['\n'] ++ template ++ ['\n'] ++ ((splitLines (decodeNewlines raw)).drop 1).flatten
      else template ++ ['\n'] ++ (splitLines (decodeNewlines raw)).flatten))) := by
  unfold checkFile
  simp only
  by_cases h0 : decodeNewlines raw = []
  · rw [if_pos h0]; exact Or.inl rfl
  rw [if_neg h0]
  generalize (if decide (shebang <+: (splitLines (decodeNewlines raw)).headD []) = true then
    (((splitLines (decodeNewlines raw)).drop 1).dropWhile (fun l => l.isEmpty)).flatten else decodeNewlines raw) = test
  by_cases ht : template <+: test
  · rw [if_pos ht]; exact Or.inl rfl
  rw [if_neg ht]
  cases fix
  · exact Or.inr (Or.inl ⟨rfl, rfl⟩)
  · exact Or.inr (Or.inr ⟨h0, rfl, rfl⟩)

/-- C39: a file that passes is left unchanged, and without the option to fix every file is. -/
theorem C39_unchanged (fix : Bool) (raw : List Char) (h : fix = false ∨ Spec.HasNotice template (decodeNewlines raw)) :
    (checkFile template fix raw).2 = raw := by
  have hc : fix = false ∨ (checkFile template fix raw).1 = false := h.imp_right (C39_check_iff template fix raw).2
  rcases checkFile_cases template fix raw with e | ⟨-, e⟩ | ⟨-, hf, e⟩
  · rw [e]
  · rw [e]
  · rw [e, hf] at hc
    simp at hc

/-- What the fix writes. -/
theorem fix_content (hcr : '\r' ∉ template) (raw : List Char) (h : ¬ Spec.HasNotice template (decodeNewlines raw)) :
    (¬ ['#', '!'] <+: decodeNewlines raw → decodeNewlines (checkFile template true raw).2 = template ++ ['\n'] ++ decodeNewlines raw) ∧
    (∀ first rest, ['#', '!'] <+: decodeNewlines raw → decodeNewlines raw = first ++ rest → Spec.IsFirstLine first rest →
      decodeNewlines (checkFile template true raw).2 = first ++ ['\n'] ++ template ++ ['\n'] ++ rest) := by
  have hfail : ¬ (checkFile template true raw).1 = false := fun hc => h ((C39_check_iff template true raw).1 hc)
  have h0 : decodeNewlines raw ≠ [] := fun h0 => h (Or.inl h0)
  have hno := decode_no_cr raw
  obtain ⟨h1, h2⟩ := splitLines_first _ h0
  have hsb := shebang_first _ h0
  rcases checkFile_cases template true raw with e0 | ⟨e0, -⟩ | ⟨-, -, e0⟩
  · rw [e0] at hfail; exact absurd rfl hfail
  · simp at e0
  rw [e0]
  constructor
  · intro hs
    have hs' : decide (shebang <+: (splitLines (decodeNewlines raw)).headD []) = false := decide_eq_false (fun h => hs (hsb.1 h))
    simp only [hs', Bool.false_eq_true, if_false, splitLines_flatten]
    refine decode_encode _ _ ?_
    simp only [List.mem_append, not_or]
    exact ⟨⟨hcr, by decide⟩, hno⟩
  · intro first rest hs e hf
    obtain ⟨rfl, rfl⟩ := hf.unique h2 (by rw [← e, ← h1])
    have hs' : decide (shebang <+: (splitLines (decodeNewlines raw)).headD []) = true := decide_eq_true (hsb.2 hs)
    simp only [hs', if_true]
    refine decode_encode _ _ ?_
    rw [e] at hno
    rw [List.mem_append, not_or] at hno
    simp only [List.mem_append, not_or]
    exact ⟨⟨⟨⟨hno.1, by decide⟩, hcr⟩, by decide⟩, hno.2⟩

/-- C39: for a file that does not start with `#!` the fix puts the notice and a line feed in front, keeps the text, and the next run accepts the file and leaves it alone. -/
theorem C39_fix_plain (hcr : '\r' ∉ template) (hsb : ¬ ['#', '!'] <+: template) (raw : List Char)
    (h : ¬ Spec.HasNotice template (decodeNewlines raw)) (hs : ¬ ['#', '!'] <+: decodeNewlines raw) (fix : Bool) :
    decodeNewlines (checkFile template true raw).2 = template ++ ['\n'] ++ decodeNewlines raw ∧
    checkFile template fix (checkFile template true raw).2 = (false, (checkFile template true raw).2) := by
  have hc := (fix_content template hcr raw h).1 hs
  refine ⟨hc, ?_⟩
  have hok : Spec.HasNotice template (decodeNewlines (checkFile template true raw).2) := by
    rw [hc]
    refine Or.inr (Or.inl ⟨?_, by rw [List.append_assoc]; exact List.prefix_append _ _⟩)
    rintro ⟨t, e⟩
    rcases template with _ | ⟨a, _ | ⟨b, l⟩⟩
    · simp at e
    · simp at e
    · simp at e
      exact hsb ⟨l, by rw [← e.1, ← e.2.1]; rfl⟩
  exact Prod.ext ((C39_check_iff template fix _).2 hok) (C39_unchanged template fix _ (Or.inr hok))

theorem prefix_newline_cons (t r : List Char) (h : t <+: '\n' :: (t ++ r)) : ∀ c ∈ t, c = '\n' := by
  suffices ∀ (t u : List Char), t <+: '\n' :: u → t <+: u ∨ u <+: t → ∀ c ∈ t, c = '\n' from
    this t (t ++ r) h (Or.inl (List.prefix_append _ _))
  intro t
  induction t with
  | nil => simp
  | cons a t ih =>
    intro u h1 h2
    rw [List.cons_prefix_cons] at h1
    obtain ⟨rfl, h1⟩ := h1
    rcases u with _ | ⟨b, u⟩
    · have : t = [] := by simpa using h1
      subst this; simp
    · have hb : b = '\n' := by
        rcases h2 with h2 | h2
        · rw [List.cons_prefix_cons] at h2; exact h2.1.symm
        · rw [List.cons_prefix_cons] at h2; exact h2.1
      subst hb
      have h2' : t <+: u ∨ u <+: t := by
        rcases h2 with h2 | h2
        · rw [List.cons_prefix_cons] at h2; exact Or.inl h2.2
        · rw [List.cons_prefix_cons] at h2; exact Or.inr h2.2
      intro c hc
      rcases List.mem_cons.1 hc with rfl | hc
      · rfl
      · exact ih u h1 h2' c hc

/-- C39, false as shipped: for a file whose first line starts with `#!` and ends with a line boundary, the fix leaves a blank line before the notice; unless the notice consists of line feeds
only, the next run rejects the file again. -/
theorem C39_fix_shebang_rejected (hcr : '\r' ∉ template) (hnl : ∃ c ∈ template, c ≠ '\n') (raw l : List Char) (b : Char) (rest : List Char)
    (h : ¬ Spec.HasNotice template (decodeNewlines raw)) (hs : ['#', '!'] <+: decodeNewlines raw)
    (e : decodeNewlines raw = (l ++ [b]) ++ rest) (hb : Spec.lineEnd b = true) (hl : ∀ c ∈ l, Spec.lineEnd c = false) (fix : Bool) :
    decodeNewlines (checkFile template true raw).2 = (l ++ [b]) ++ ['\n'] ++ template ++ ['\n'] ++ rest ∧
    ¬ Spec.HasNotice template (decodeNewlines (checkFile template true raw).2) ∧
    (checkFile template fix (checkFile template true raw).2).1 = true := by
  have hc := (fix_content template hcr raw h).2 (l ++ [b]) rest hs e (Or.inr ⟨l, b, rfl, hb, hl⟩)
  have hsb : ['#', '!'] <+: l ++ [b] := by
    have := (shebang_first (decodeNewlines raw) (by rw [e]; simp)).2 hs
    obtain ⟨h1, h2⟩ := splitLines_first (decodeNewlines raw) (by rw [e]; simp)
    obtain ⟨e1, -⟩ := Spec.IsFirstLine.unique (f := l ++ [b]) (r := rest) (Or.inr ⟨l, b, rfl, hb, hl⟩) h2 (by rw [← e, ← h1])
    rw [e1]; exact this
  have hnot : ¬ Spec.HasNotice template (decodeNewlines (checkFile template true raw).2) := by
    rw [hc]
    have e' : (l ++ [b]) ++ ['\n'] ++ template ++ ['\n'] ++ rest = (l ++ [b]) ++ ('\n' :: (template ++ ('\n' :: rest))) := by simp
    rw [e']
    have hsb' : ['#', '!'] <+: (l ++ [b]) ++ ('\n' :: (template ++ ('\n' :: rest))) := hsb.trans (List.prefix_append _ _)
    rintro (h | ⟨h, -⟩ | ⟨-, f, r, e2, hf, ht⟩)
    · simp at h
    · exact h hsb'
    · obtain ⟨-, rfl⟩ := hf.unique (Or.inr ⟨l, b, rfl, hb, hl⟩) e2.symm
      obtain ⟨c, hc1, hc2⟩ := hnl
      exact hc2 (prefix_newline_cons template _ ht c hc1)
  refine ⟨hc, hnot, ?_⟩
  by_contra hcon
  exact hnot ((C39_check_iff template fix _).1 (by simpa using hcon))

/-- C39: for a file that consists of one line starting with `#!` without a line boundary the fix works. -/
theorem C39_fix_shebang_only (hcr : '\r' ∉ template) (raw : List Char)
    (h : ¬ Spec.HasNotice template (decodeNewlines raw)) (hs : ['#', '!'] <+: decodeNewlines raw)
    (hl : ∀ c ∈ decodeNewlines raw, Spec.lineEnd c = false) (fix : Bool) :
    checkFile template fix (checkFile template true raw).2 = (false, (checkFile template true raw).2) := by
  have hc := (fix_content template hcr raw h).2 (decodeNewlines raw) [] hs (by simp) (Or.inl ⟨hl, rfl⟩)
  have hok : Spec.HasNotice template (decodeNewlines (checkFile template true raw).2) := by
    rw [hc]
    refine Or.inr (Or.inr ⟨?_, decodeNewlines raw ++ ['\n'], template ++ ['\n'], by simp, Or.inr ⟨_, _, rfl, by decide, hl⟩, List.prefix_append _ _⟩)
    simp only [List.append_assoc]
    exact hs.trans (List.prefix_append _ _)
  exact Prod.ext ((C39_check_iff template fix _).2 hok) (C39_unchanged template fix _ (Or.inr hok))

/-- Repeated runs with the fix. -/
def fixRuns : ℕ → List Char → List Char
  | 0, raw => raw
  | k + 1, raw => (checkFile template true (fixRuns k raw)).2

/-- C39, false as shipped: such a file gets one more copy of the notice with every run, without end. -/
theorem C39_fix_shebang_grows (hcr : '\r' ∉ template) (hnl : ∃ c ∈ template, c ≠ '\n') (raw l : List Char) (b : Char) (rest : List Char)
    (h : ¬ Spec.HasNotice template (decodeNewlines raw)) (hs : ['#', '!'] <+: decodeNewlines raw)
    (e : decodeNewlines raw = (l ++ [b]) ++ rest) (hb : Spec.lineEnd b = true) (hl : ∀ c ∈ l, Spec.lineEnd c = false) (k : ℕ) :
    decodeNewlines (fixRuns template k raw) = (l ++ [b]) ++ (List.replicate k (['\n'] ++ template ++ ['\n'])).flatten ++ rest ∧
    ¬ Spec.HasNotice template (decodeNewlines (fixRuns template k raw)) := by
  induction k with
  | zero => exact ⟨by simp [fixRuns, e], h⟩
  | succ k ih =>
    obtain ⟨ih1, ih2⟩ := ih
    have hsb : ['#', '!'] <+: l ++ [b] := by
      have := (shebang_first (decodeNewlines raw) (by rw [e]; simp)).2 hs
      obtain ⟨h1, h2⟩ := splitLines_first (decodeNewlines raw) (by rw [e]; simp)
      obtain ⟨e1, -⟩ := Spec.IsFirstLine.unique (f := l ++ [b]) (r := rest) (Or.inr ⟨l, b, rfl, hb, hl⟩) h2 (by rw [← e, ← h1])
      rw [e1]; exact this
    have := C39_fix_shebang_rejected template hcr hnl (fixRuns template k raw) l b
      ((List.replicate k (['\n'] ++ template ++ ['\n'])).flatten ++ rest) ih2
      (by rw [ih1, List.append_assoc]; exact hsb.trans (List.prefix_append _ _)) (by rw [ih1]; simp only [List.append_assoc]) hb hl true
    refine ⟨?_, this.2.1⟩
    show decodeNewlines (checkFile template true (fixRuns template k raw)).2 = _
    rw [this.1, List.replicate_succ, List.flatten_cons]
    simp only [List.append_assoc]

/-- C39, a side effect: whatever the line ends of the file were, after the fix they are all alike; a file whose first line does not end with `\r\n` has no `\r` left. -/
theorem C39_fix_line_ends (hcr : '\r' ∉ template) (raw : List Char) (h : ¬ Spec.HasNotice template (decodeNewlines raw)) :
    (guessNewline raw = .lf → '\r' ∉ (checkFile template true raw).2) ∧
    (guessNewline raw = .crlf → ∃ t : List Char, '\r' ∉ t ∧ (checkFile template true raw).2 = t.flatMap fun c => if c = '\n' then ['\r', '\n'] else [c]) := by
  have hfail : ¬ (checkFile template true raw).1 = false := fun hc => h ((C39_check_iff template true raw).1 hc)
  have h0 : decodeNewlines raw ≠ [] := fun h0 => h (Or.inl h0)
  have hno := decode_no_cr raw
  obtain ⟨h1, h2⟩ := splitLines_first _ h0
  have key : ∃ t, '\r' ∉ t ∧ (checkFile template true raw).2 = encodeNewlines (guessNewline raw) t := by
    rcases checkFile_cases template true raw with e0 | ⟨e0, -⟩ | ⟨-, -, e0⟩
    · rw [e0] at hfail; exact absurd rfl hfail
    · simp at e0
    rw [e0]
    refine ⟨_, ?_, rfl⟩
    split_ifs
    · rw [h1, List.mem_append, not_or] at hno
      simp only [List.mem_append, not_or]
      exact ⟨⟨⟨⟨hno.1, by decide⟩, hcr⟩, by decide⟩, hno.2⟩
    · rw [splitLines_flatten]
      simp only [List.mem_append, not_or]
      exact ⟨⟨hcr, by decide⟩, hno⟩
  obtain ⟨t, ht, e⟩ := key
  constructor
  · intro hg
    rw [e, hg]; exact ht
  · intro hg
    exact ⟨t, ht, by rw [e, hg]; rfl⟩

/-- C39: the exit code is zero exactly if all files have the notice, and there are as many files as before. -/
theorem C39_exit_code (templateRaw : List Char) (fix : Bool) (files : List (List Char)) :
    ((copyrightMain templateRaw fix files).1 = 0 ↔ ∀ raw ∈ files, Spec.HasNotice (decodeNewlines templateRaw) (decodeNewlines raw)) ∧
    ((copyrightMain templateRaw fix files).1 = 0 ∨ (copyrightMain templateRaw fix files).1 = 1) ∧
    ((copyrightMain templateRaw fix files).1 = 0 ∨ fix = false → (copyrightMain templateRaw fix files).2 = files) := by
  have h1 : (copyrightMain templateRaw fix files).1 = 0 ↔ ∀ raw ∈ files, Spec.HasNotice (decodeNewlines templateRaw) (decodeNewlines raw) := by
    unfold copyrightMain
    simp only [List.any_map]
    simp only [← C39_check_iff _ fix]
    split_ifs with h
    · simp only [false_iff, not_forall]
      obtain ⟨r, hr, h⟩ := List.any_eq_true.1 h
      simp only [Function.comp] at h
      exact ⟨r, hr, by rw [h]; simp⟩
    · simp only [true_iff]
      intro r hr
      by_contra hc
      exact h (List.any_eq_true.2 ⟨r, hr, by simpa using hc⟩)
  refine ⟨h1, ?_, ?_⟩
  · unfold copyrightMain; simp only; split_ifs <;> simp
  · intro h
    unfold copyrightMain
    simp only [List.map_map]
    conv_rhs => rw [← List.map_id files]
    refine List.map_congr_left fun raw hraw => ?_
    refine C39_unchanged _ fix raw ?_
    rcases h with h | h
    · exact Or.inr (h1.1 h raw hraw)
    · exact Or.inl h

end hook

/-- A template meeting the hypotheses, and files of each kind. -/
example : checkFile "# (c)\n".toList true "x = 1\r\n".toList = (true, "# (c)\r\n\r\nx = 1\r\n".toList) := by decide +kernel
example : checkFile "# (c)\n".toList true "#!/bin/sh\nx".toList = (true, "#!/bin/sh\n\n# (c)\n\nx".toList) := by decide +kernel
example : checkFile "# (c)\n".toList true "#!/bin/sh\n\n# (c)\n\nx".toList = (true, "#!/bin/sh\n\n# (c)\n\n\n# (c)\n\nx".toList) := by decide +kernel
example : checkFile "# (c)\n".toList true "#!/bin/sh\n# (c)\nx".toList = (false, "#!/bin/sh\n# (c)\nx".toList) := by decide +kernel
/-- Mixed line ends are not kept. -/
example : checkFile "# (c)\n".toList true "x\ny\r\nz".toList = (true, "# (c)\n\nx\ny\nz".toList) := by decide +kernel

example : (checkFile "# (c)\n".toList false "x = 1\r\n".toList).2 = "x = 1\r\n".toList := C39_unchanged _ _ _ (.inl rfl)

example := C39_fix_plain "# (c)\n".toList (by decide +kernel) (by decide +kernel) "x = 1\r\ny".toList (fun h => by have := (C39_check_iff _ false _).2 h; revert this; decide +kernel) (by decide +kernel) true

example := C39_fix_shebang_rejected "# (c)\n".toList (by decide +kernel) (by decide +kernel) "#!/bin/sh\nx".toList "#!/bin/sh".toList '\n' ['x'] (fun h => by have := (C39_check_iff _ false _).2 h; revert this; decide +kernel) (by decide +kernel)
  (by decide +kernel) (by decide +kernel) (by decide +kernel) true

example := C39_fix_shebang_only "# (c)\n".toList (by decide +kernel) "#!/bin/sh".toList (fun h => by have := (C39_check_iff _ false _).2 h; revert this; decide +kernel) (by decide +kernel) (by decide +kernel) true

example := C39_fix_shebang_grows "# (c)\n".toList (by decide +kernel) (by decide +kernel) "#!/bin/sh\nx".toList "#!/bin/sh".toList '\n' ['x'] (fun h => by have := (C39_check_iff _ false _).2 h; revert this; decide +kernel) (by decide +kernel)
  (by decide +kernel) (by decide +kernel) (by decide +kernel) 3

example := C39_fix_line_ends "# (c)\n".toList (by decide +kernel) "x = 1\r\n".toList (fun h => by have := (C39_check_iff _ false _).2 h; revert this; decide +kernel)

end Coreax
