import Mathlib.Data.List.Basic

/-!
# Model of `/repo/pre_commit_hooks/require_utf8.py`

The hook reads each file with `open(path, encoding="UTF-8")`, line by line.  The text layer of Python (`io.TextIOWrapper`) is external;
it is modelled here from its documentation: bytes arrive in chunks of any sizes, an incremental strict UTF-8 decoder keeps an
unfinished sequence for the next chunk, and line ends `\n`, `\r`, `\r\n` are all read as `\n`.
Bytes and characters are numbers.
-/

namespace Coreax.Utf8

/-- What the strict decoder makes of the front of a list of bytes. -/
inductive Step where
  | char (c : ℕ) (rest : List ℕ)
  | incomplete
  | invalid
  deriving DecidableEq, Repr

/-- A continuation byte. -/
def isCont (b : ℕ) : Bool := 0x80 ≤ b && b ≤ 0xBF

/-- The second byte of a sequence of three: no overlong forms, no surrogates. -/
def isSecond3 (b0 b1 : ℕ) : Bool := isCont b1 && (b0 ≠ 0xE0 || 0xA0 ≤ b1) && (b0 ≠ 0xED || b1 ≤ 0x9F)

/-- The second byte of a sequence of four: no overlong forms, nothing above `0x10FFFF`. -/
def isSecond4 (b0 b1 : ℕ) : Bool := isCont b1 && (b0 ≠ 0xF0 || 0x90 ≤ b1) && (b0 ≠ 0xF4 || b1 ≤ 0x8F)

/-- The decoder of one character; the table of well-formed sequences (Unicode standard, table 3-7) that Python's strict `utf-8` codec
accepts.  Used by `/repo/pre_commit_hooks/require_utf8.py:53` through `open(..., encoding="UTF-8")`. -/
def step : List ℕ → Step
  | [] => .incomplete
  | b0 :: t =>
    if b0 < 0x80 then .char b0 t
    else if b0 < 0xC2 then .invalid
    else if b0 < 0xE0 then
      match t with
      | [] => .incomplete
      | b1 :: t1 => if isCont b1 then .char ((b0 - 0xC0) * 64 + (b1 - 0x80)) t1 else .invalid
    else if b0 < 0xF0 then
      match t with
      | [] => .incomplete
      | b1 :: t1 =>
        if isSecond3 b0 b1 then
          match t1 with
          | [] => .incomplete
          | b2 :: t2 => if isCont b2 then .char (((b0 - 0xE0) * 64 + (b1 - 0x80)) * 64 + (b2 - 0x80)) t2 else .invalid
        else .invalid
    else if b0 < 0xF5 then
      match t with
      | [] => .incomplete
      | b1 :: t1 =>
        if isSecond4 b0 b1 then
          match t1 with
          | [] => .incomplete
          | b2 :: t2 =>
            if isCont b2 then
              match t2 with
              | [] => .incomplete
              | b3 :: t3 =>
                if isCont b3 then
                  .char ((((b0 - 0xF0) * 64 + (b1 - 0x80)) * 64 + (b2 - 0x80)) * 64 + (b3 - 0x80)) t3
                else .invalid
            else .invalid
        else .invalid
    else .invalid

/-- Decode as far as possible; `none` is `UnicodeDecodeError`, otherwise the characters and the bytes of an unfinished sequence, which
are an error in the final call.  The first argument bounds the number of characters. -/
def decode (final : Bool) : ℕ → List ℕ → Option (List ℕ × List ℕ)
  | 0, bs => some ([], bs)
  | _ + 1, [] => some ([], [])
  | f + 1, b :: bs =>
    match step (b :: bs) with
    | .char c rest => (decode final f rest).map fun r => (c :: r.1, r.2)
    | .incomplete => if final then none else some ([], b :: bs)
    | .invalid => none

/-- Universal newlines: `\r\n` and `\r` become `\n`. -/
def translate : List ℕ → List ℕ
  | 13 :: 10 :: t => 10 :: translate t
  | 13 :: t => 10 :: translate t
  | c :: t => c :: translate t
  | [] => []

/-- The state of the text layer: chunks still to be read, bytes of an unfinished character, a `\r` that is held back because a `\n` may
follow, characters decoded and not yet returned. -/
structure Reader where
  chunks : List (List ℕ)
  tail : List ℕ
  pendingCr : Bool
  decoded : List ℕ
  deriving DecidableEq, Repr

/-- The newline decoder on the output of the decoder. -/
def newlines (final pendingCr : Bool) (out : List ℕ) : Bool × List ℕ :=
  let held := pendingCr && (!out.isEmpty || final)
  let out := if held then 13 :: out else out
  if out.getLast? = some 13 ∧ ¬ final then (true, translate out.dropLast)
  else (pendingCr && !held, translate out)

/-- One chunk through both decoders: `none` is `UnicodeDecodeError`. -/
def feed (final : Bool) (r : Reader) (chunk : List ℕ) : Option Reader :=
  match decode final (r.tail ++ chunk).length (r.tail ++ chunk) with
  | none => none
  | some (out, tail) =>
    let q := newlines final r.pendingCr out
    some { r with tail := tail, pendingCr := q.1, decoded := r.decoded ++ q.2 }

/-- The first line of decoded text, and the rest. -/
def splitLine (l : List ℕ) : List ℕ × List ℕ :=
  (l.takeWhile (· ≠ 10) ++ (l.dropWhile (· ≠ 10)).take 1, (l.dropWhile (· ≠ 10)).drop 1)

/-- `TextIOWrapper.readline`, on the chunks that are left. -/
def readLineAux : List (List ℕ) → Reader → Option (List ℕ × Reader)
  | [], r =>
    if 10 ∈ r.decoded then some ((splitLine r.decoded).1, { r with chunks := [], decoded := (splitLine r.decoded).2 })
    else
      match feed true r [] with
      | none => none
      | some r' => some ((splitLine r'.decoded).1, { r' with chunks := [], decoded := (splitLine r'.decoded).2 })
  | c :: cs, r =>
    if 10 ∈ r.decoded then some ((splitLine r.decoded).1, { r with chunks := c :: cs, decoded := (splitLine r.decoded).2 })
    else
      match feed false r c with
      | none => none
      | some r' => readLineAux cs r'

/-- `rf.readline()`; `/repo/pre_commit_hooks/require_utf8.py:56`. -/
def readLine (r : Reader) : Option (List ℕ × Reader) := readLineAux r.chunks r

/-- The loop over the lines of one file; `/repo/pre_commit_hooks/require_utf8.py:53-63`.  The result is the number of the line that is
reported, if any.  The first argument bounds the number of lines (`itertools.count` is unbounded). -/
def checkLines : ℕ → ℕ → Reader → Option ℕ
  | 0, _, _ => none
  | f + 1, lineNumber, r =>
    match readLine r with
    | none => some lineNumber
    | some (line, r') => if line = [] then none else checkLines f (lineNumber + 1) r'

/-- One file, whose bytes arrive in the given chunks; `/repo/pre_commit_hooks/require_utf8.py:53-63`. -/
def checkFile (chunks : List (List ℕ)) : Option ℕ := checkLines (chunks.flatten.length + 1) 1 ⟨chunks, [], false, []⟩

/-- `main`; `/repo/pre_commit_hooks/require_utf8.py:48-65`: the printed messages (number of the file in the command line and of the
line) and the exit status.  Opening a file that does not exist is not modelled. -/
def main (files : List (List (List ℕ))) : List (ℕ × ℕ) × Bool :=
  files.zipIdx.foldl (fun s p =>
    match checkFile p.1 with
    | none => s
    | some line => (s.1 ++ [(p.2, line)], true)) ([], false)

end Coreax.Utf8
