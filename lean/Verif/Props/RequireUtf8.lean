import Verif.Model.RequireUtf8
import Mathlib.Tactic.Common
import Mathlib.Algebra.Order.Ring.Nat

/-!
# C82: the hook that requires UTF-8
-/

namespace Coreax

namespace Spec

/-- Unicode scalar values: code points without surrogates. -/
def IsScalar (c : ℕ) : Prop := c < 0xD800 ∨ (0xE000 ≤ c ∧ c < 0x110000)

/-- The UTF-8 encoding of a scalar value (RFC 3629, section 3). -/
def utf8 (c : ℕ) : List ℕ :=
  if c < 0x80 then [c]
  else if c < 0x800 then [0xC0 + c / 64, 0x80 + c % 64]
  else if c < 0x10000 then [0xE0 + c / 4096, 0x80 + c / 64 % 64, 0x80 + c % 64]
  else [0xF0 + c / 262144, 0x80 + c / 4096 % 64, 0x80 + c / 64 % 64, 0x80 + c % 64]

/-- The bytes are the encoding of a text. -/
def IsUtf8 (bs : List ℕ) : Prop := ∃ cs : List ℕ, (∀ c ∈ cs, IsScalar c) ∧ bs = cs.flatMap utf8

/-- The number of line ends in a text: `\n`, `\r` and `\r\n` count once. -/
def lineEnds : List ℕ → ℕ
  | 13 :: 10 :: t => 1 + lineEnds t
  | 13 :: t => 1 + lineEnds t
  | 10 :: t => 1 + lineEnds t
  | _ :: t => lineEnds t
  | [] => 0

end Spec

namespace Utf8

open Spec

theorem isCont_iff (b : ℕ) : isCont b = true ↔ 0x80 ≤ b ∧ b ≤ 0xBF := by simp [isCont]

theorem isSecond3_iff (b0 b1 : ℕ) : isSecond3 b0 b1 = true ↔ 0x80 ≤ b1 ∧ b1 ≤ 0xBF ∧ (b0 = 0xE0 → 0xA0 ≤ b1) ∧ (b0 = 0xED → b1 ≤ 0x9F) := by
  simp only [isSecond3, isCont, Bool.and_eq_true, Bool.or_eq_true, decide_eq_true_eq, ne_eq]
  omega

theorem isSecond4_iff (b0 b1 : ℕ) : isSecond4 b0 b1 = true ↔ 0x80 ≤ b1 ∧ b1 ≤ 0xBF ∧ (b0 = 0xF0 → 0x90 ≤ b1) ∧ (b0 = 0xF4 → b1 ≤ 0x8F) := by
  simp only [isSecond4, isCont, Bool.and_eq_true, Bool.or_eq_true, decide_eq_true_eq, ne_eq]
  omega

theorem step_char {bs : List ℕ} {c : ℕ} {rest : List ℕ} (h : step bs = .char c rest) : IsScalar c ∧ bs = utf8 c ++ rest := by
  unfold step at h
  split at h
  · cases h
  rename_i b0 t
  split at h
  · injection h with h1 h2
    subst h1 h2
    exact ⟨Or.inl (by omega), by simp [utf8, *]⟩
  split at h
  · cases h
  split at h
  · split at h
    · cases h
    rename_i b1 t1
    split at h
    · rename_i hb
      rw [isCont_iff] at hb
      injection h with h1 h2
      subst h2
      have e1 : ¬ c < 0x80 := by omega
      have e2 : c < 0x800 := by omega
      have e3 : c / 64 = b0 - 0xC0 := by omega
      have e4 : c % 64 = b1 - 0x80 := by omega
      refine ⟨Or.inl (by omega), ?_⟩
      have f0 : 0xC0 + (b0 - 0xC0) = b0 := by omega
      have f1 : 0x80 + (b1 - 0x80) = b1 := by omega
      simp only [utf8, if_neg e1, if_pos e2, e3, e4, List.cons_append, List.nil_append, f0, f1]
    · cases h
  split at h
  · split at h
    · cases h
    rename_i b1 t1
    split at h
    · rename_i hb1
      split at h
      · cases h
      rename_i b2 t2
      split at h
      · rename_i hb
        rw [isCont_iff] at hb
        injection h with h1 h2
        subst h2
        have hb10 := (isSecond3_iff _ _).1 hb1
        have e1 : ¬ c < 0x80 := by omega
        have e2 : ¬ c < 0x800 := by omega
        have e2' : c < 0x10000 := by omega
        have e3 : c / 4096 = b0 - 0xE0 := by omega
        have e4 : c / 64 % 64 = b1 - 0x80 := by omega
        have e5 : c % 64 = b2 - 0x80 := by omega
        refine ⟨by unfold IsScalar; omega, ?_⟩
        have f0 : 0xE0 + (b0 - 0xE0) = b0 := by omega
        have f1 : 0x80 + (b1 - 0x80) = b1 := by omega
        have f2 : 0x80 + (b2 - 0x80) = b2 := by omega
        simp only [utf8, if_neg e1, if_neg e2, if_pos e2', e3, e4, e5, List.cons_append, List.nil_append, f0, f1, f2]
      · cases h
    · cases h
  split at h
  · split at h
    · cases h
    rename_i b1 t1
    split at h
    · rename_i hb1
      split at h
      · cases h
      rename_i b2 t2
      split at h
      · rename_i hb2
        split at h
        · cases h
        rename_i b3 t3
        split at h
        · rename_i hb
          rw [isCont_iff] at hb hb2
          injection h with h1 h2
          subst h2
          have hb10 := (isSecond4_iff _ _).1 hb1
          have e1 : ¬ c < 0x80 := by omega
          have e2 : ¬ c < 0x800 := by omega
          have e2' : ¬ c < 0x10000 := by omega
          have e3 : c / 262144 = b0 - 0xF0 := by omega
          have e4 : c / 4096 % 64 = b1 - 0x80 := by omega
          have e5 : c / 64 % 64 = b2 - 0x80 := by omega
          have e6 : c % 64 = b3 - 0x80 := by omega
          refine ⟨by unfold IsScalar; omega, ?_⟩
          have f0 : 0xF0 + (b0 - 0xF0) = b0 := by omega
          have f1 : 0x80 + (b1 - 0x80) = b1 := by omega
          have f2 : 0x80 + (b2 - 0x80) = b2 := by omega
          have f3 : 0x80 + (b3 - 0x80) = b3 := by omega
          simp only [utf8, if_neg e1, if_neg e2, if_neg e2', e3, e4, e5, e6, List.cons_append, List.nil_append, f0, f1, f2, f3]
        · cases h
      · cases h
    · cases h
  · cases h

theorem step_utf8 {c : ℕ} (hc : IsScalar c) (rest : List ℕ) : step (utf8 c ++ rest) = .char c rest := by
  unfold IsScalar at hc
  unfold utf8
  split
  · simp only [List.cons_append, List.nil_append, step]
    rw [if_pos ‹_›]
  split
  · simp only [List.cons_append, List.nil_append, step]
    rw [if_neg (by omega), if_neg (by omega), if_pos (by omega), if_pos ((isCont_iff _).2 (by omega))]
    exact congrArg (Step.char · rest) (by omega)
  split
  · simp only [List.cons_append, List.nil_append, step]
    rw [if_neg (by omega), if_neg (by omega), if_neg (by omega), if_pos (by omega), if_pos ((isSecond3_iff _ _).2 (by omega)), if_pos ((isCont_iff _).2 (by omega))]
    exact congrArg (Step.char · rest) (by omega)
  · simp only [List.cons_append, List.nil_append, step]
    rw [if_neg (by omega), if_neg (by omega), if_neg (by omega), if_neg (by omega), if_pos (by omega), if_pos ((isSecond4_iff _ _).2 (by omega)),
      if_pos ((isCont_iff _).2 (by omega)), if_pos ((isCont_iff _).2 (by omega))]
    exact congrArg (Step.char · rest) (by omega)

theorem step_invalid {bs : List ℕ} (h : step bs = .invalid) (z : List ℕ) : step (bs ++ z) = .invalid := by
  unfold step at h ⊢
  split at h
  · cases h
  rename_i b0 t
  simp only [List.cons_append]
  split at h
  · cases h
  rw [if_neg ‹_›]
  split at h
  · rw [if_pos ‹_›]
  rw [if_neg ‹_›]
  split at h
  · rw [if_pos ‹_›]
    split at h
    · cases h
    · simp only [List.cons_append]
      split at h
      · cases h
      · rw [if_neg ‹_›]
  rw [if_neg ‹_›]
  split at h
  · rw [if_pos ‹_›]
    split at h
    · cases h
    · simp only [List.cons_append]
      split at h
      · rw [if_pos ‹_›]
        split at h
        · cases h
        · simp only [List.cons_append]
          split at h
          · cases h
          · rw [if_neg ‹_›]
      · rw [if_neg ‹_›]
  rw [if_neg ‹_›]
  split at h
  · rw [if_pos ‹_›]
    split at h
    · cases h
    · simp only [List.cons_append]
      split at h
      · rw [if_pos ‹_›]
        split at h
        · cases h
        · simp only [List.cons_append]
          split at h
          · rw [if_pos ‹_›]
            split at h
            · cases h
            · simp only [List.cons_append]
              split at h
              · cases h
              · rw [if_neg ‹_›]
          · rw [if_neg ‹_›]
      · rw [if_neg ‹_›]
  · rw [if_neg ‹_›]

theorem utf8_ne_nil (c : ℕ) : utf8 c ≠ [] := by
  unfold utf8
  split
  · simp
  split
  · simp
  split <;> simp

theorem utf8_length (c : ℕ) : 1 ≤ (utf8 c).length := List.length_pos_of_ne_nil (utf8_ne_nil c)

theorem isUtf8_nil : IsUtf8 [] := ⟨[], by simp, rfl⟩

theorem isUtf8_cons {c : ℕ} (hc : IsScalar c) (rest : List ℕ) : IsUtf8 (utf8 c ++ rest) ↔ IsUtf8 rest := by
  constructor
  · rintro ⟨cs, h1, h2⟩
    cases cs with
    | nil => exact absurd (List.append_eq_nil_iff.1 h2).1 (utf8_ne_nil c)
    | cons c' cs =>
      have h3 := step_utf8 hc rest
      rw [h2, List.flatMap_cons, step_utf8 (h1 c' (by simp))] at h3
      injection h3 with h4 h5
      exact ⟨cs, fun c hc => h1 c (by simp [hc]), h5.symm⟩
  · rintro ⟨cs, h1, rfl⟩
    refine ⟨c :: cs, fun c' h => ?_, by simp⟩
    rcases List.mem_cons.1 h with rfl | h
    · exact hc
    · exact h1 _ h

theorem isUtf8_append {cs : List ℕ} (hc : ∀ c ∈ cs, IsScalar c) (rest : List ℕ) : IsUtf8 (cs.flatMap utf8 ++ rest) ↔ IsUtf8 rest := by
  induction cs with
  | nil => simp
  | cons c cs ih =>
    rw [List.flatMap_cons, List.append_assoc, isUtf8_cons (hc c (by simp)), ih fun c h => hc c (by simp [h])]

theorem isUtf8_step {bs : List ℕ} (h : IsUtf8 bs) (h0 : bs ≠ []) : ∃ c rest, step bs = .char c rest := by
  obtain ⟨cs, h1, rfl⟩ := h
  cases cs with
  | nil => simp at h0
  | cons c cs => exact ⟨c, cs.flatMap utf8, by rw [List.flatMap_cons, step_utf8 (h1 c (by simp))]⟩

/-- What the incremental decoder does. -/
theorem decode_spec (final : Bool) (f : ℕ) (bs : List ℕ) (hf : bs.length ≤ f) :
    (decode final f bs = none → ∀ z, (final = true → z = []) → ¬ IsUtf8 (bs ++ z)) ∧
    ∀ out tail, decode final f bs = some (out, tail) →
      (∀ c ∈ out, IsScalar c) ∧ bs = out.flatMap utf8 ++ tail ∧ (final = true → tail = []) ∧ (tail = [] ∨ step tail = .incomplete) := by
  induction f generalizing bs with
  | zero =>
    have : bs = [] := List.length_eq_zero_iff.1 (by omega)
    subst this
    refine ⟨fun h => by simp [decode] at h, fun out tail h => ?_⟩
    simp only [decode, Option.some.injEq, Prod.mk.injEq] at h
    obtain ⟨rfl, rfl⟩ := h
    simp
  | succ f ih =>
    cases bs with
    | nil =>
      refine ⟨fun h => by simp [decode] at h, fun out tail h => ?_⟩
      simp only [decode, Option.some.injEq, Prod.mk.injEq] at h
      obtain ⟨rfl, rfl⟩ := h
      simp
    | cons b bs =>
      unfold decode
      split
      · rename_i c rest hs
        obtain ⟨h1, h2⟩ := step_char hs
        have hlen : rest.length ≤ f := by
          have := congrArg List.length h2
          have := utf8_length c
          simp only [List.length_cons, List.length_append] at *
          omega
        obtain ⟨i1, i2⟩ := ih rest hlen
        rw [h2]
        refine ⟨fun h z hz => ?_, fun out tail h => ?_⟩
        · rw [Option.map_eq_none_iff] at h
          rw [List.append_assoc, isUtf8_cons h1]
          exact i1 h z hz
        · rw [Option.map_eq_some_iff] at h
          obtain ⟨⟨o, t⟩, h3, h4⟩ := h
          simp only [Prod.mk.injEq] at h4
          obtain ⟨rfl, rfl⟩ := h4
          obtain ⟨j1, j2, j3⟩ := i2 o t h3
          refine ⟨fun c' h => ?_, by rw [List.flatMap_cons, List.append_assoc, ← j2], j3⟩
          rcases List.mem_cons.1 h with rfl | h
          · exact h1
          · exact j1 _ h
      · rename_i hs
        refine ⟨fun h z hz => ?_, fun out tail h => ?_⟩
        · split at h
          · rw [hz ‹_›, List.append_nil]
            intro hu
            obtain ⟨c, rest, h3⟩ := isUtf8_step hu (by simp)
            rw [hs] at h3
            cases h3
          · cases h
        · split at h
          · cases h
          · simp only [Option.some.injEq, Prod.mk.injEq] at h
            obtain ⟨rfl, rfl⟩ := h
            exact ⟨by simp, by simp, fun h => absurd h ‹_›, Or.inr hs⟩
      · rename_i hs
        refine ⟨fun _ z _ hu => ?_, fun out tail h => by cases h⟩
        obtain ⟨c, rest, h3⟩ := isUtf8_step hu (by simp)
        rw [step_invalid hs z] at h3
        cases h3

theorem translate_length (l : List ℕ) : (translate l).length ≤ l.length := by
  induction l using translate.induct with
  | case1 t ih => simp only [translate, List.length_cons]; omega
  | case2 t h ih => rw [translate]; simp only [List.length_cons]; omega; exact h
  | case3 c t h1 h2 ih => rw [translate]; simp only [List.length_cons]; omega; all_goals assumption
  | case4 => simp [translate]

theorem translate_cr {t : List ℕ} (h : ∀ t', t ≠ 10 :: t') : translate (13 :: t) = 10 :: translate t := by
  rw [translate]
  exact h

theorem translate_other {c : ℕ} (hc : c ≠ 13) (t : List ℕ) : translate (c :: t) = c :: translate t := by
  rw [translate]
  · exact fun t' h => absurd h hc
  · exact hc

theorem lineEnds_cr {t : List ℕ} (h : ∀ t', t ≠ 10 :: t') : lineEnds (13 :: t) = 1 + lineEnds t := by
  rw [lineEnds]
  exact h

theorem lineEnds_other {c : ℕ} (hc : c ≠ 13) (hc' : c ≠ 10) (t : List ℕ) : lineEnds (c :: t) = lineEnds t := by
  rw [lineEnds]
  · exact fun t' h => absurd h hc
  · exact hc
  · exact hc'

theorem translate_append (a b : List ℕ) (h : a.getLast? = some 13 → b.head? ≠ some 10) : translate (a ++ b) = translate a ++ translate b := by
  induction a using translate.induct with
  | case1 t ih =>
    simp only [List.cons_append, translate]
    rw [ih fun h' => h (by cases t <;> simp_all)]
  | case2 t h1 ih =>
    have h2 : ∀ t', t ++ b ≠ 10 :: t' := by
      intro t' ht
      cases t with
      | nil => exact h (by simp) (by simp_all)
      | cons c t => exact h1 t (by simp_all)
    rw [List.cons_append, translate_cr h2, translate_cr h1, ih fun h' => h (by cases t <;> simp_all)]
    rfl
  | case3 c t h1 h2 ih =>
    rw [List.cons_append, translate_other h2, translate_other h2, ih fun h' => h (by cases t <;> simp_all)]
    rfl
  | case4 => simp [translate]

theorem count_translate (l : List ℕ) : (translate l).count 10 = lineEnds l := by
  induction l using translate.induct with
  | case1 t ih => simp only [translate, lineEnds, List.count_cons_self, ih]; omega
  | case2 t h ih => rw [translate_cr h, lineEnds_cr h, List.count_cons_self, ih]; omega
  | case3 c t h1 h2 ih =>
    rw [translate_other h2]
    by_cases hc : c = 10
    · subst hc
      rw [List.count_cons_self, ih, lineEnds]
      omega
    · rw [List.count_cons_of_ne hc, ih, lineEnds_other h2 hc]
  | case4 => rfl

theorem lineEnds_le (a b : List ℕ) : lineEnds a ≤ lineEnds (a ++ b) := by
  induction a using translate.induct with
  | case1 t ih => simp only [List.cons_append, lineEnds]; omega
  | case2 t h ih =>
    rw [lineEnds_cr h]
    cases t with
    | nil =>
      rw [List.cons_append, List.nil_append]
      cases b with
      | nil => simp [lineEnds]
      | cons c b =>
        by_cases hc : c = 10
        · subst hc; simp [lineEnds]
        · rw [lineEnds_cr (by intro t h; exact hc (by simp_all))]
          simp [lineEnds]
    | cons c t =>
      have : ∀ t', (c :: t) ++ b ≠ 10 :: t' := fun t' ht => h t (by simp_all)
      rw [List.cons_append, lineEnds_cr this]
      omega
  | case3 c t h1 h2 ih =>
    by_cases hc : c = 10
    · subst hc
      rw [List.cons_append, lineEnds, lineEnds]
      omega
    · rw [List.cons_append, lineEnds_other h2 hc, lineEnds_other h2 hc]
      exact ih
  | case4 => simp [lineEnds]

/-- The invariant of the newline decoder: `cs` is the text so far, `E` what was emitted. -/
def NL (cs : List ℕ) (pend : Bool) (E : List ℕ) : Prop :=
  (pend = true → ∃ c0, cs = c0 ++ [13] ∧ E = translate c0) ∧ (pend = false → cs.getLast? ≠ some 13 ∧ E = translate cs)

theorem newlines_spec {cs E out : List ℕ} {pend : Bool} (h : NL cs pend E) :
    NL (cs ++ out) (newlines false pend out).1 (E ++ (newlines false pend out).2) := by
  cases pend with
  | true =>
    obtain ⟨c0, rfl, rfl⟩ := h.1 rfl
    cases out with
    | nil => simpa [newlines, translate] using h
    | cons c out =>
      have hj : ∀ l, (13 :: l : List ℕ).head? ≠ some 10 := by simp
      by_cases hl : (13 :: c :: out).getLast? = some 13
      · have hnew : newlines false true (c :: out) = (true, translate (13 :: c :: out).dropLast) := by simp [newlines, hl]
        rw [hnew]
        refine ⟨fun _ => ⟨c0 ++ (13 :: c :: out).dropLast, ?_, ?_⟩, fun h => by cases h⟩
        · have := List.dropLast_append_getLast? 13 hl
          rw [List.append_assoc, List.append_assoc, this]
          rfl
        · rw [translate_append _ _ fun _ => by simp]
      · have hnew : newlines false true (c :: out) = (false, translate (13 :: c :: out)) := by
          rw [List.getLast?_cons_cons] at hl
          simp [newlines, hl]
        rw [hnew]
        refine ⟨nofun, fun _ => ⟨?_, ?_⟩⟩
        · simpa using hl
        · rw [List.append_assoc, translate_append c0 _ fun _ => by simp]
          rfl
  | false =>
    obtain ⟨h1, rfl⟩ := h.2 rfl
    by_cases hl : out.getLast? = some 13
    · have hnew : newlines false false out = (true, translate out.dropLast) := by simp [newlines, hl]
      rw [hnew]
      refine ⟨fun _ => ⟨cs ++ out.dropLast, ?_, ?_⟩, fun h => by cases h⟩
      · rw [List.append_assoc, List.dropLast_append_getLast? 13 hl]
      · rw [translate_append _ _ fun h => absurd h h1]
    · have hnew : newlines false false out = (false, translate out) := by simp [newlines, hl]
      rw [hnew]
      refine ⟨nofun, fun _ => ⟨?_, ?_⟩⟩
      · cases out with
        | nil => simpa using h1
        | cons c out => simpa using hl
      · rw [translate_append _ _ fun h => absurd h h1]

theorem newlines_final {cs E out : List ℕ} {pend : Bool} (h : NL cs pend E) :
    (newlines true pend out).1 = false ∧ E ++ (newlines true pend out).2 = translate (cs ++ out) := by
  cases pend with
  | true =>
    obtain ⟨c0, rfl, rfl⟩ := h.1 rfl
    have hnew : newlines true true out = (false, translate (13 :: out)) := by simp [newlines]
    rw [hnew, List.append_assoc, translate_append c0 _ fun _ => by simp]
    exact ⟨rfl, rfl⟩
  | false =>
    obtain ⟨h1, rfl⟩ := h.2 rfl
    have hnew : newlines true false out = (false, translate out) := by simp [newlines]
    rw [hnew, translate_append _ _ fun h => absurd h h1]
    exact ⟨rfl, rfl⟩

theorem newlines_length (final pend : Bool) (out : List ℕ) :
    (newlines final pend out).2.length + (newlines final pend out).1.toNat ≤ out.length + pend.toNat := by
  have key : ∀ l : List ℕ, (if l.getLast? = some 13 ∧ ¬ final = true then (true, translate l.dropLast) else (false, translate l)).2.length +
      (if l.getLast? = some 13 ∧ ¬ final = true then (true, translate l.dropLast) else (false, translate l)).1.toNat ≤ l.length := by
    intro l
    split
    · rename_i h
      have h1 := translate_length l.dropLast
      have h2 : l ≠ [] := by rintro rfl; simp at h
      have := List.length_pos_of_ne_nil h2
      simp only [List.length_dropLast, Bool.toNat_true] at *
      omega
    · simpa using translate_length l
  cases pend with
  | false => simpa [newlines] using key out
  | true =>
    cases out with
    | nil => cases final <;> simp [newlines, translate]
    | cons c out =>
      have := key (13 :: c :: out)
      simpa [newlines, add_comm, add_left_comm] using this

theorem splitLine_append (l : List ℕ) : (splitLine l).1 ++ (splitLine l).2 = l := by
  rw [splitLine, List.append_assoc, List.take_append_drop, List.takeWhile_append_dropWhile]

theorem splitLine_mem {l : List ℕ} (h : 10 ∈ l) : 10 ∈ (splitLine l).1 := by
  have hd : ∃ t, l.dropWhile (· ≠ 10) = 10 :: t := by
    induction l with
    | nil => simp at h
    | cons c l ih =>
      by_cases hc : c = 10
      · exact ⟨l, by simp [hc]⟩
      · obtain ⟨t, ht⟩ := ih (by simpa [Ne.symm hc] using h)
        exact ⟨t, by simpa [hc] using ht⟩
  obtain ⟨t, ht⟩ := hd
  simp only [splitLine, ht]
  simp

theorem splitLine_not_mem {l : List ℕ} (h : 10 ∉ l) : splitLine l = (l, []) := by
  induction l with
  | nil => rfl
  | cons c l ih =>
    have hc : c ≠ 10 := by rintro rfl; simp at h
    have ih := ih (by simp_all)
    simp only [splitLine, Prod.mk.injEq] at ih ⊢
    simp only [List.takeWhile_cons, List.dropWhile_cons, hc, ne_eq, not_false_eq_true, decide_true, if_true, List.cons_append]
    exact ⟨congrArg (c :: ·) ih.1, ih.2⟩

/-- The end of the file has been decoded. -/
def Finished (r : Reader) (chunks : List (List ℕ)) : Prop := chunks = [] ∧ r.tail = [] ∧ r.pendingCr = false

/-- The state of the reader after the lines `L` of the file with bytes `B`. -/
def Inv (B L : List ℕ) (chunks : List (List ℕ)) (r : Reader) : Prop :=
  ∃ cs, (∀ c ∈ cs, IsScalar c) ∧ B = cs.flatMap utf8 ++ (r.tail ++ chunks.flatten) ∧
    (NL cs r.pendingCr (L ++ r.decoded) ∨ Finished r chunks ∧ L ++ r.decoded = translate cs)

/-- The number of characters and bytes to come. -/
def size (chunks : List (List ℕ)) (r : Reader) : ℕ := r.decoded.length + r.pendingCr.toNat + r.tail.length + chunks.flatten.length

theorem flatMap_length (cs : List ℕ) : cs.length ≤ (cs.flatMap utf8).length := by
  induction cs with
  | nil => simp
  | cons c cs ih =>
    have := utf8_length c
    simp only [List.flatMap_cons, List.length_append, List.length_cons]
    omega

theorem feed_spec {B L c : List ℕ} {rest : List (List ℕ)} {r : Reader} (h : Inv B L (c :: rest) r) :
    (feed false r c = none → ¬ IsUtf8 B) ∧ ∀ r', feed false r c = some r' → Inv B L rest r' ∧ size rest r' ≤ size (c :: rest) r := by
  obtain ⟨cs, h1, h2, h3⟩ := h
  have h3 : NL cs r.pendingCr (L ++ r.decoded) := h3.resolve_right fun h => by simp [Finished] at h
  obtain ⟨d1, d2⟩ := decode_spec false (r.tail ++ c).length (r.tail ++ c) le_rfl
  unfold feed
  refine ⟨fun h => ?_, fun r' h => ?_⟩
  · split at h
    · rename_i hd
      rw [h2, isUtf8_append h1, List.flatten_cons, ← List.append_assoc]
      exact d1 hd _ nofun
    · cases h
  · split at h
    · cases h
    · rename_i out tail hd
      obtain ⟨e1, e2, -, -⟩ := d2 out tail hd
      simp only [Option.some.injEq] at h
      subst h
      refine ⟨⟨cs ++ out, fun c h => (List.mem_append.1 h).elim (h1 c) (e1 c), ?_, Or.inl ?_⟩, ?_⟩
      · rw [h2, List.flatMap_append, List.append_assoc, ← List.append_assoc (out.flatMap utf8), ← e2, List.flatten_cons, List.append_assoc]
      · have := newlines_spec (out := out) h3
        simpa only [List.append_assoc] using this
      · have l1 := newlines_length false r.pendingCr out
        have l2 := congrArg List.length e2
        have l3 := flatMap_length out
        simp only [size, List.length_append, List.flatten_cons] at *
        omega

theorem feed_final {B L : List ℕ} {r : Reader} (h : Inv B L [] r) :
    (feed true r [] = none → ¬ IsUtf8 B) ∧
      ∀ r', feed true r [] = some r' → IsUtf8 B ∧ Inv B L [] r' ∧ Finished r' [] ∧ size [] r' ≤ size [] r := by
  obtain ⟨cs, h1, h2, h3⟩ := h
  obtain ⟨d1, d2⟩ := decode_spec true (r.tail ++ []).length (r.tail ++ []) le_rfl
  unfold feed
  refine ⟨fun h => ?_, fun r' h => ?_⟩
  · split at h
    · rename_i hd
      rw [h2, isUtf8_append h1]
      simpa using d1 hd [] fun _ => rfl
    · cases h
  · split at h
    · cases h
    · rename_i out tail hd
      obtain ⟨e1, e2, e3, -⟩ := d2 out tail hd
      have e3 := e3 rfl
      subst e3
      rw [List.append_nil, List.append_nil] at e2
      simp only [Option.some.injEq] at h
      subst h
      have hN : (newlines true r.pendingCr out).1 = false ∧ L ++ r.decoded ++ (newlines true r.pendingCr out).2 = translate (cs ++ out) := by
        rcases h3 with h3 | ⟨⟨-, h4, h5⟩, h6⟩
        · exact newlines_final h3
        · have : out = [] := by
            rw [h4] at e2
            have := flatMap_length out
            rw [← e2] at this
            exact List.length_eq_zero_iff.1 (Nat.le_zero.1 this)
          subst this
          rw [h5]
          simpa [newlines, translate] using h6
      have hsc : ∀ c ∈ cs ++ out, IsScalar c := fun c h => (List.mem_append.1 h).elim (h1 c) (e1 c)
      have hB : B = (cs ++ out).flatMap utf8 := by simp [h2, e2]
      refine ⟨⟨_, hsc, hB⟩, ⟨cs ++ out, hsc, by simp [hB], Or.inr ⟨⟨rfl, rfl, hN.1⟩, by simpa using hN.2⟩⟩, ⟨rfl, rfl, hN.1⟩, ?_⟩
      have l1 := newlines_length true r.pendingCr out
      have l2 := congrArg List.length e2
      have l3 := flatMap_length out
      simp only [size, List.length_append, List.flatten_nil, List.length_nil] at *
      omega

theorem Inv.bound {B L : List ℕ} {chunks : List (List ℕ)} {r : Reader} (h : Inv B L chunks r) :
    ∃ cs, (∀ c ∈ cs, IsScalar c) ∧ cs.flatMap utf8 <+: B ∧ (L ++ r.decoded).count 10 ≤ lineEnds cs := by
  obtain ⟨cs, h1, h2, h3⟩ := h
  refine ⟨cs, h1, ⟨_, h2.symm⟩, ?_⟩
  have key : ∀ {p}, NL cs p (L ++ r.decoded) → (L ++ r.decoded).count 10 ≤ lineEnds cs := by
    intro p hp
    cases p with
    | true =>
      obtain ⟨c0, rfl, h⟩ := hp.1 rfl
      rw [h, count_translate]
      exact lineEnds_le _ _
    | false => rw [(hp.2 rfl).2, count_translate]
  rcases h3 with h3 | ⟨-, h3⟩
  · exact key h3
  · rw [h3, count_translate]

/-- Returning a line from the decoded text. -/
theorem Inv.take {B L : List ℕ} {chunks : List (List ℕ)} {r : Reader} (h : Inv B L chunks r) :
    Inv B (L ++ (splitLine r.decoded).1) chunks { r with chunks := chunks, decoded := (splitLine r.decoded).2 } ∧
      size chunks { r with chunks := chunks, decoded := (splitLine r.decoded).2 } + (splitLine r.decoded).1.length = size chunks r := by
  obtain ⟨cs, h1, h2, h3⟩ := h
  have e := splitLine_append r.decoded
  refine ⟨⟨cs, h1, h2, ?_⟩, ?_⟩
  · simp only [Finished, List.append_assoc, e] at h3 ⊢
    exact h3
  · have := congrArg List.length e
    simp only [size, List.length_append] at *
    omega

theorem readLineAux_spec {B L : List ℕ} (chunks : List (List ℕ)) {r : Reader} (h : Inv B L chunks r) :
    (readLineAux chunks r = none → ¬ IsUtf8 B) ∧
    ∀ line r', readLineAux chunks r = some (line, r') → Inv B (L ++ line) r'.chunks r' ∧ size r'.chunks r' + line.length ≤ size chunks r ∧
      (line = [] → IsUtf8 B) ∧ (10 ∈ line ∨ Finished r' r'.chunks ∧ r'.decoded = []) := by
  induction chunks generalizing r with
  | nil =>
    unfold readLineAux
    split
    · rename_i hm
      refine ⟨nofun, fun line r' hr => ?_⟩
      simp only [Option.some.injEq, Prod.mk.injEq] at hr
      obtain ⟨rfl, rfl⟩ := hr
      have hl := splitLine_mem hm
      exact ⟨h.take.1, h.take.2.le, fun h0 => by simp [h0] at hl, Or.inl hl⟩
    · obtain ⟨f1, f2⟩ := feed_final h
      split
      · rename_i hf
        exact ⟨fun _ => f1 hf, nofun⟩
      · rename_i r1 hf
        obtain ⟨g1, g2, g3, g4⟩ := f2 r1 hf
        refine ⟨nofun, fun line r' hr => ?_⟩
        simp only [Option.some.injEq, Prod.mk.injEq] at hr
        obtain ⟨rfl, rfl⟩ := hr
        refine ⟨g2.take.1, g2.take.2.le.trans g4, fun _ => g1, ?_⟩
        by_cases hm : 10 ∈ r1.decoded
        · exact Or.inl (splitLine_mem hm)
        · exact Or.inr ⟨g3, by rw [splitLine_not_mem hm]⟩
  | cons c cks ih =>
    unfold readLineAux
    split
    · rename_i hm
      refine ⟨nofun, fun line r' hr => ?_⟩
      simp only [Option.some.injEq, Prod.mk.injEq] at hr
      obtain ⟨rfl, rfl⟩ := hr
      have hl := splitLine_mem hm
      exact ⟨h.take.1, h.take.2.le, fun h0 => by simp [h0] at hl, Or.inl hl⟩
    · obtain ⟨f1, f2⟩ := feed_spec h
      split
      · rename_i hf
        exact ⟨fun _ => f1 hf, nofun⟩
      · rename_i r1 hf
        obtain ⟨g1, g2⟩ := f2 r1 hf
        obtain ⟨i1, i2⟩ := ih g1
        refine ⟨i1, fun line r' hr => ?_⟩
        obtain ⟨j1, j2, j3⟩ := i2 line r' hr
        exact ⟨j1, j2.trans g2, j3⟩

theorem checkLines_spec {B : List ℕ} (f n : ℕ) {L : List ℕ} {r : Reader} (h : Inv B L r.chunks r) (hf : size r.chunks r < f)
    (hn : n ≤ 1 + L.count 10 ∨ Finished r r.chunks ∧ r.decoded = []) :
    (checkLines f n r = none → IsUtf8 B) ∧
    ∀ m, checkLines f n r = some m → ¬ IsUtf8 B ∧ n ≤ m ∧
      ∃ cs, (∀ c ∈ cs, IsScalar c) ∧ cs.flatMap utf8 <+: B ∧ m ≤ 1 + lineEnds cs := by
  induction f generalizing n L r with
  | zero => omega
  | succ f ih =>
    obtain ⟨r1, r2⟩ := readLineAux_spec r.chunks h
    unfold checkLines readLine
    split
    · rename_i hr
      refine ⟨nofun, fun m hm => ?_⟩
      simp only [Option.some.injEq] at hm
      subst hm
      rcases hn with hn | ⟨⟨h1, h2, h3⟩, h4⟩
      · obtain ⟨cs, b1, b2, b3⟩ := h.bound
        rw [List.count_append] at b3
        exact ⟨r1 hr, le_rfl, cs, b1, b2, by omega⟩
      · exfalso
        rw [h1] at hr
        simp [readLineAux, h4, feed, h2, decode] at hr
    · rename_i line r' hr
      obtain ⟨k1, k2, k3, k4⟩ := r2 line r' hr
      split
      · exact ⟨fun _ => k3 ‹_›, nofun⟩
      · have hlen : 0 < line.length := List.length_pos_of_ne_nil ‹_›
        have hn' : n + 1 ≤ 1 + (L ++ line).count 10 ∨ Finished r' r'.chunks ∧ r'.decoded = [] := by
          rcases hn with hn | ⟨⟨h1, h2, h3⟩, h4⟩
          · rcases k4 with k4 | k4
            · refine Or.inl ?_
              have := List.count_pos_iff.2 k4
              rw [List.count_append]
              omega
            · exact Or.inr k4
          · exfalso
            have : size r.chunks r = 0 := by simp [size, h1, h2, h3, h4]
            omega
        obtain ⟨i1, i2⟩ := ih (n + 1) k1 (by omega) hn'
        refine ⟨i1, fun m hm => ?_⟩
        obtain ⟨j1, j2, j3⟩ := i2 m hm
        exact ⟨j1, by omega, j3⟩

theorem checkFile_spec (chunks : List (List ℕ)) :
    (checkFile chunks = none ↔ IsUtf8 chunks.flatten) ∧ ∀ m, checkFile chunks = some m → 1 ≤ m ∧
      ∃ cs, (∀ c ∈ cs, IsScalar c) ∧ cs.flatMap utf8 <+: chunks.flatten ∧ m ≤ 1 + lineEnds cs := by
  have hI : Inv chunks.flatten [] chunks ⟨chunks, [], false, []⟩ := ⟨[], by simp, by simp, Or.inl ⟨nofun, by simp [translate]⟩⟩
  obtain ⟨h1, h2⟩ := checkLines_spec (chunks.flatten.length + 1) 1 (r := ⟨chunks, [], false, []⟩) hI (by simp [size]) (Or.inl (by simp))
  refine ⟨⟨h1, fun hu => ?_⟩, fun m hm => (h2 m hm).2⟩
  cases hc : checkFile chunks with
  | none => rfl
  | some m => exact absurd hu (h2 m hc).1

theorem prefix_of {cs ds : List ℕ} (hc : ∀ c ∈ cs, IsScalar c) (hd : ∀ c ∈ ds, IsScalar c) {z : List ℕ} (hz : ∀ c, IsScalar c → ¬ utf8 c <+: z)
    (h : cs.flatMap utf8 <+: ds.flatMap utf8 ++ z) : cs <+: ds := by
  induction cs generalizing ds with
  | nil => exact List.nil_prefix
  | cons c cs ih =>
    obtain ⟨t, ht⟩ := h
    rw [List.flatMap_cons, List.append_assoc] at ht
    cases ds with
    | nil =>
      exact absurd ⟨_, ht⟩ (hz c (hc c (by simp)))
    | cons e ds =>
      have h1 := step_utf8 (hc c (by simp)) (cs.flatMap utf8 ++ t)
      rw [ht, List.flatMap_cons, List.append_assoc, step_utf8 (hd e (by simp))] at h1
      injection h1 with h1 h2
      subst h1
      rw [List.cons_prefix_cons]
      exact ⟨rfl, ih (fun c h => hc c (by simp [h])) (fun c h => hd c (by simp [h])) ⟨t, h2.symm⟩⟩

end Utf8

open Spec Utf8

/-- The messages and status of `main`, file by file. -/
theorem Utf8.main_eq (files : List (List (List ℕ))) :
    Utf8.main files = (files.zipIdx.filterMap fun p => (checkFile p.1).map fun line => (p.2, line), files.any fun f => (checkFile f).isSome) := by
  have key : ∀ (l : List (List (List ℕ) × ℕ)) (s : List (ℕ × ℕ) × Bool),
      l.foldl (fun s p => match checkFile p.1 with | none => s | some line => (s.1 ++ [(p.2, line)], true)) s =
        (s.1 ++ l.filterMap fun p => (checkFile p.1).map fun line => (p.2, line), s.2 || l.any fun p => (checkFile p.1).isSome) := by
    intro l
    induction l with
    | nil => simp
    | cons p l ih =>
      intro s
      rw [List.foldl_cons, ih]
      cases h : checkFile p.1 <;> simp [h]
  refine (key files.zipIdx ([], false)).trans ?_
  congr 1
  simp only [Bool.false_or]
  have : files = files.zipIdx.map Prod.fst := by simp
  conv_rhs => rw [this, List.any_map]
  rfl

/-- **C82.** The hook succeeds exactly if every file is UTF-8, however the bytes of the files arrive. -/
theorem C82_exit (files : List (List (List ℕ))) : (Utf8.main files).2 = false ↔ ∀ f ∈ files, IsUtf8 f.flatten := by
  rw [Utf8.main_eq]
  simp only [List.any_eq_false, Option.isSome_iff_ne_none, ne_eq, not_not]
  exact forall₂_congr fun f _ => (checkFile_spec f).1

/-- **C82.** There is one message for each file that is not UTF-8 and none for the others, in the order of the command line. -/
theorem C82_messages (files : List (List (List ℕ))) :
    ((Utf8.main files).1.map Prod.fst).Pairwise (· < ·) ∧
      ∀ i, i ∈ (Utf8.main files).1.map Prod.fst ↔ ∃ h : i < files.length, ¬ IsUtf8 (files[i]).flatten := by
  rw [Utf8.main_eq]
  constructor
  · have h1 : (files.zipIdx.filterMap fun p => (checkFile p.1).map fun line => (p.2, line)).map Prod.fst =
        (files.zipIdx.filter fun p => (checkFile p.1).isSome).map Prod.snd := by
      generalize files.zipIdx = l
      induction l with
      | nil => rfl
      | cons p l ih => cases h : checkFile p.1 <;> simp_all
    rw [h1]
    have h2 : (files.zipIdx.map Prod.snd).Pairwise (· < ·) := by
      rw [List.zipIdx_map_snd]
      exact List.pairwise_lt_range'
    exact h2.sublist (List.filter_sublist.map _)
  · intro i
    simp only [List.mem_map, List.mem_filterMap, Option.map_eq_some_iff, Prod.exists]
    constructor
    · rintro ⟨a, b, ⟨f, j, hf, line, hl, h2⟩, h3⟩
      simp only [Prod.mk.injEq] at h2
      obtain ⟨rfl, rfl⟩ := h2
      subst h3
      rw [List.mem_zipIdx_iff_getElem?] at hf
      obtain ⟨hj, hf⟩ := List.getElem?_eq_some_iff.1 hf
      refine ⟨hj, ?_⟩
      rw [hf, ← (checkFile_spec f).1, hl]
      simp
    · rintro ⟨hi, h⟩
      rw [← (checkFile_spec _).1] at h
      obtain ⟨line, hl⟩ := Option.ne_none_iff_exists'.1 h
      exact ⟨i, line, ⟨files[i], i, by rw [List.mem_zipIdx_iff_getElem?]; simp, line, hl, rfl⟩, rfl⟩

/-- **C82.** The line that is reported is never after the line of the first byte that is wrong (`cs` is the text before it). -/
theorem C82_line_bound (chunks : List (List ℕ)) (n : ℕ) (h : checkFile chunks = some n) (cs z : List ℕ) (hcs : ∀ c ∈ cs, IsScalar c)
    (hz : ∀ c, IsScalar c → ¬ utf8 c <+: z) (hb : chunks.flatten = cs.flatMap utf8 ++ z) : 1 ≤ n ∧ n ≤ 1 + lineEnds cs := by
  obtain ⟨h1, ds, h2, h3, h4⟩ := (checkFile_spec chunks).2 n h
  refine ⟨h1, h4.trans ?_⟩
  rw [hb] at h3
  obtain ⟨t, ht⟩ := prefix_of h2 hcs hz h3
  have := lineEnds_le ds t
  rw [ht] at this
  omega

/-- An unfinished sequence can be finished. -/
theorem Utf8.step_incomplete {bs : List ℕ} (h : step bs = .incomplete) (h0 : bs ≠ []) : ∃ y c, step (bs ++ y) = .char c [] := by
  unfold step at h
  split at h
  · exact absurd rfl h0
  rename_i b0 t
  split at h
  · cases h
  rename_i g1
  split at h
  · cases h
  rename_i g2
  split at h
  · rename_i g3
    split at h
    · refine ⟨[0x80], ?_⟩
      simp only [List.cons_append, List.nil_append, step, g1, g2, g3, if_true, if_false]
      rw [if_pos (by decide)]
      exact ⟨_, rfl⟩
    · split at h <;> cases h
  rename_i g3
  split at h
  · rename_i g4
    split at h
    · by_cases e : b0 = 0xE0
      · subst e
        exact ⟨[0xA0, 0x80], _, rfl⟩
      · refine ⟨[0x80, 0x80], ?_⟩
        simp only [List.cons_append, List.nil_append, step, g1, g2, g3, g4, if_true, if_false]
        rw [if_pos (by simp [isSecond3, isCont, e]), if_pos (by decide)]
        exact ⟨_, rfl⟩
    · rename_i b1 t1
      split at h
      · rename_i g5
        split at h
        · refine ⟨[0x80], ?_⟩
          simp only [List.cons_append, List.nil_append, step, g1, g2, g3, g4, g5, if_true, if_false]
          rw [if_pos (by decide)]
          exact ⟨_, rfl⟩
        · split at h <;> cases h
      · cases h
  rename_i g4
  split at h
  · rename_i g5
    split at h
    · by_cases e : b0 = 0xF0
      · subst e
        exact ⟨[0x90, 0x80, 0x80], _, rfl⟩
      · refine ⟨[0x80, 0x80, 0x80], ?_⟩
        simp only [List.cons_append, List.nil_append, step, g1, g2, g3, g4, g5, if_true, if_false]
        rw [if_pos (by simp [isSecond4, isCont, e]), if_pos (by decide), if_pos (by decide)]
        exact ⟨_, rfl⟩
    · rename_i b1 t1
      split at h
      · rename_i g6
        split at h
        · refine ⟨[0x80, 0x80], ?_⟩
          simp only [List.cons_append, List.nil_append, step, g1, g2, g3, g4, g5, g6, if_true, if_false]
          rw [if_pos (by decide), if_pos (by decide)]
          exact ⟨_, rfl⟩
        · rename_i b2 t2
          split at h
          · rename_i g7
            split at h
            · refine ⟨[0x80], ?_⟩
              simp only [List.cons_append, List.nil_append, step, g1, g2, g3, g4, g5, g6, g7, if_true, if_false]
              rw [if_pos (by decide)]
              exact ⟨_, rfl⟩
            · split at h <;> cases h
          · cases h
      · cases h
  · cases h

/-- **C82.** But it may be long before it: if the wrong byte is in the first chunk (8192 bytes in Python), line one is reported wherever
it is. -/
theorem C82_first_chunk (c : List ℕ) (rest : List (List ℕ)) (h : ∀ y, ¬ IsUtf8 (c ++ y)) : checkFile (c :: rest) = some 1 := by
  have hd : decode false c.length c = none := by
    cases hd : decode false c.length c with
    | none => rfl
    | some q =>
      exfalso
      obtain ⟨out, tail⟩ := q
      obtain ⟨e1, e2, -, e4⟩ := (decode_spec false c.length c le_rfl).2 out tail hd
      by_cases ht : tail = []
      · exact h [] ⟨out, e1, by simpa [ht] using e2⟩
      · obtain ⟨y, d, hy⟩ := step_incomplete (e4.resolve_left ht) ht
        obtain ⟨f1, f2⟩ := step_char hy
        refine h y ⟨out ++ [d], fun x hx => ?_, ?_⟩
        · rcases List.mem_append.1 hx with hx | hx
          · exact e1 x hx
          · rw [List.mem_singleton] at hx
            exact hx ▸ f1
        · rw [e2, List.append_assoc, f2]
          simp
  simp [checkFile, checkLines, readLine, readLineAux, feed, hd]

/-- **C82.** The line that is reported depends on how the bytes arrive; the status does not. -/
theorem C82_chunking : (∃ a b : List (List ℕ), a.flatten = b.flatten ∧ checkFile a ≠ checkFile b) ∧
    ∀ a b : List (List ℕ), a.flatten = b.flatten → ((checkFile a).isSome ↔ (checkFile b).isSome) := by
  refine ⟨⟨[[65, 10, 0xFF]], [[65, 10], [0xFF]], by decide, by decide +kernel⟩, fun a b h => ?_⟩
  rw [Option.isSome_iff_ne_none, Option.isSome_iff_ne_none, ne_eq, ne_eq, (checkFile_spec a).1, (checkFile_spec b).1, h]

/-! ### Cases -/

-- "é€😀" split inside each character, a lone continuation byte on the third line, an overlong form, a surrogate
example : checkFile [[0xC3], [0xA9, 0xE2, 0x82], [0xAC, 0xF0], [0x9F, 0x98, 0x80]] = none := by decide +kernel
example : checkFile [[65, 13], [10, 66, 10], [0x80]] = some 3 := by decide +kernel
example : checkFile [[65, 13, 10, 66, 10, 0x80]] = some 1 := by decide +kernel
example : checkFile [[0xC0, 0x80]] = some 1 := by decide +kernel
example : checkFile [[0xED, 0xA0, 0x80]] = some 1 := by decide +kernel
example : checkFile [[65, 10], [0xC3]] = some 2 := by decide +kernel
example : Utf8.main [[[65]], [[0xFF]], [[66, 10]], [[67, 10], [0xFE]]] = ([(1, 1), (3, 2)], true) := by decide +kernel

-- the hypotheses of `C82_line_bound`: the text "A", line end, then a byte that starts no character
example : ∀ c, IsScalar c → ¬ utf8 c <+: [0xFF] := by
  rintro c hc ⟨t, ht⟩
  have := step_utf8 hc t
  rw [ht] at this
  simp [step] at this

-- the hypothesis of `C82_first_chunk`
example (y : List ℕ) : ¬ IsUtf8 ([65, 10, 0xFF] ++ y) := by
  intro h
  have h2 : IsUtf8 ([65, 10].flatMap utf8 ++ (0xFF :: y)) := h
  rw [isUtf8_append (by simp [IsScalar])] at h2
  obtain ⟨c, rest, h3⟩ := isUtf8_step h2 (by simp)
  simp [step] at h3

end Coreax
