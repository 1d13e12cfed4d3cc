import Verif.Model.Basic
import Mathlib.Data.List.Lex

/-!
# Model of the maintenance scripts

`tests/coverage/compare.py`, `tests/performance/compare.py`, `pre_commit_hooks/check_copyright.py`.  Text is a list of characters.
-/

namespace Coreax

/-! ### Names of data files -/

section names

/-- Exactly `k` characters that satisfy `p` (a regular-expression group `(class{k})`). -/
def takeExact (p : Char → Bool) (k : ℕ) (s : List Char) : Option (List Char × List Char) :=
  if k ≤ s.length ∧ (s.take k).all p then some (s.take k, s.drop k) else none

/-- A literal part of a regular expression. -/
def expect (lit s : List Char) : Option (List Char) := if lit <+: s then some (s.drop lit.length) else none

/-- `int(…)` of a group of digits; `digit` is the value of a decimal digit (`\d` and `int` accept all Unicode decimal digits). -/
def toInt (digit : Char → Option ℕ) (s : List Char) : ℕ := s.foldl (fun a c => 10 * a + (digit c).getD 0) 0

/-- `[0-9a-f]`. -/
def isHex (c : Char) : Bool := ('0' ≤ c && c ≤ '9') || ('a' ≤ c && c ≤ 'f')

/-- The groups matched by `COVERAGE_FILENAME_REGEX.fullmatch` (or the performance one), `none` without a match;
`/repo/tests/coverage/compare.py:27-33`, `/repo/tests/performance/compare.py:32-38`. -/
def matchName (digit : Char → Option ℕ) (pre s : List Char) : Option (List (List Char)) := do
  let d c := (digit c).isSome
  let s ← expect (pre ++ ['-']) s
  let (year, s) ← takeExact d 4 s
  let s ← expect ['-'] s
  let (month, s) ← takeExact d 2 s
  let s ← expect ['-'] s
  let (day, s) ← takeExact d 2 s
  let s ← expect ['-', '-'] s
  let (hour, s) ← takeExact d 2 s
  let s ← expect ['-'] s
  let (minute, s) ← takeExact d 2 s
  let s ← expect ['-'] s
  let (second, s) ← takeExact d 2 s
  let s ← expect ['-', '-'] s
  let (hash, s) ← takeExact isHex 40 s
  let s ← expect ['-', '-', 'v'] s
  let version := s.takeWhile d
  if version ≠ [] ∧ s.dropWhile d = ['.', 'j', 's', 'o', 'n'] then
    some [year, month, day, hour, minute, second, hash, version]
  else none

/-- Days in a month, as in `datetime`. -/
def daysIn (year month : ℕ) : ℕ :=
  if month = 2 then (if year % 4 = 0 ∧ (year % 100 ≠ 0 ∨ year % 400 = 0) then 29 else 28)
  else if month = 4 ∨ month = 6 ∨ month = 9 ∨ month = 11 then 30 else 31

/-- The arguments for which `datetime.datetime(…)` does not raise `ValueError`. -/
def validDate (y mo d h mi s : ℕ) : Bool :=
  decide (1 ≤ y ∧ y ≤ 9999 ∧ 1 ≤ mo ∧ mo ≤ 12 ∧ 1 ≤ d ∧ d ≤ daysIn y mo ∧ h < 24 ∧ mi < 60 ∧ s < 60)

/-- The tuple `(date_time, commit_hash)`. Python compares it lexicographically, dates by their components and hashes by code points. -/
structure FileKey where
  date : List ℕ
  hash : List Char
  deriving DecidableEq

/-- The order of tuples in Python. -/
def FileKey.lt (a b : FileKey) : Prop := a.date < b.date ∨ (a.date = b.date ∧ a.hash < b.hash)

instance (a b : FileKey) : Decidable (FileKey.lt a b) := by unfold FileKey.lt; infer_instance

/-- `date_from_filename`; `/repo/tests/coverage/compare.py:60-96`, `/repo/tests/performance/compare.py:98-131`. -/
def dateFromFilename (digit : Char → Option ℕ) (pre s : List Char) : Except Err (Option FileKey) :=
  match matchName digit pre s with
  | some [year, month, day, hour, minute, second, hash, version] =>
    let i := toInt digit
    if i version ≠ 1 then .ok none
    else if validDate (i year) (i month) (i day) (i hour) (i minute) (i second) then
      .ok (some ⟨[i year, i month, i day, i hour, i minute, i second], hash⟩)
    else .error .valueError
  | _ => .ok none

/-- The dictionary of dated files, in the order of the directory. -/
def datedFiles {F : Type} (key : F → Except Err (Option FileKey)) : List F → Except Err (List (F × FileKey))
  | [] => .ok []
  | f :: fs => do
    let k ← key f
    let rest ← datedFiles key fs
    .ok (match k with
      | none => rest
      | some k => (f, k) :: rest)

/-- `max(files.keys(), key=files.__getitem__)`: the first file with the greatest key. -/
def latest {F : Type} : List (F × FileKey) → Option (F × FileKey)
  | [] => none
  | x :: xs =>
    match latest xs with
    | none => some x
    | some y => if x.2.lt y.2 then some y else some x

/-- `get_most_recent_coverage_total` and `get_most_recent_historic_data`: the file that is read, `none` if there is none;
`/repo/tests/coverage/compare.py:99-128`, `/repo/tests/performance/compare.py:135-166`. -/
def mostRecent {F : Type} (key : F → Except Err (Option FileKey)) (dir : List F) : Except Err (Option F) := do
  let files ← datedFiles key dir
  .ok ((latest files).map Prod.fst)

end names

/-! ### Coverage -/

section coverage
variable {K : Type} [Field K] [LinearOrder K]

/-- What `check_significant_difference` prints. -/
inductive CoverageReport
  | same
  | increased
  | failed (absolute relative : Bool)
  | slight
  deriving DecidableEq

/-- `check_significant_difference`: the return value and the message; `/repo/tests/coverage/compare.py:131-178`.
Numbers may be NaN or infinite; the tolerances are 1/2 and 1/100 exactly. -/
def checkCoverage (current historic : Ext K) : Bool × CoverageReport :=
  let absolute := historic - current
  let relative := if Ext.lt (Ext.fin 0) historic then absolute / historic else Ext.fin 0
  if absolute = Ext.fin 0 then (false, .same)
  else if Ext.lt absolute (Ext.fin 0) then (false, .increased)
  else
    let exceedAbsolute := Ext.lt (Ext.fin (1 / 2)) absolute
    let exceedRelative := Ext.lt (Ext.fin (1 / 100)) relative
    if exceedAbsolute || exceedRelative then (true, .failed exceedAbsolute exceedRelative)
    else (false, .slight)

/-- `main`: the exit code; `/repo/tests/coverage/compare.py:181-187`. `total f` is the recorded total of file `f`. -/
def coverageMain {F : Type} (key : F → Except Err (Option FileKey)) (total : F → Ext K) (dir : List F) (current : Ext K) :
    Except Err ℕ := do
  let f ← mostRecent key dir
  let historic := match f with
    | none => Ext.fin 0
    | some f => total f
  .ok (if (checkCoverage current historic).1 then 2 else 0)

end coverage

/-! ### Performance -/

section performance
variable {K : Type} [Field K] [LinearOrder K]

/-- `relative_change`; `/repo/tests/performance/compare.py:241-268`: division of Python numbers by zero raises `ZeroDivisionError`, which gives `inf`. -/
def relativeChange (before after : Ext K) : Except Err (Ext K) :=
  if Ext.lt before (Ext.fin 0) || Ext.lt after (Ext.fin 0) then .error .valueError
  else if before = Ext.fin 0 then .ok Ext.pinf
  else .ok ((after - before) / before)

/-- `abs` of a float. -/
def Ext.absF : Ext K → Ext K
  | .nan => .nan
  | .ninf => .pinf
  | .fin x => .fin |x|
  | .pinf => .pinf

/-- `SinglePerformanceTestData`. -/
structure TestData (K : Type*) where
  compilationMean : Ext K
  executionMean : Ext K
  compilationStd : Ext K
  executionStd : Ext K
  numRuns : ℕ

/-- Which time a message is about, and the direction it states. -/
inductive Timed | compilation | execution
  deriving DecidableEq
inductive Direction | increase | decrease
  deriving DecidableEq

/-- `ttest_ind_from_stats(mean1, std1, nobs1, mean2, std2, nobs2, equal_var=False).pvalue`: external. -/
abbrev TTest (K : Type*) := Ext K → Ext K → ℕ → Ext K → Ext K → ℕ → Ext K

/-- One comparison: the decision and the direction; `/repo/tests/performance/compare.py:297-351`. -/
def compareMeans (ttest : TTest K) (threshold : K) (mean1 std1 : Ext K) (n1 : ℕ) (mean2 std2 : Ext K) (n2 : ℕ) :
    Except Err (Option Direction) := do
  let p := ttest mean1 std1 n1 mean2 std2 n2
  let change ← relativeChange mean2 mean1
  if Ext.lt p (Ext.fin threshold) && Ext.lt (Ext.fin (1 / 10)) change.absF then
    .ok (some (if Ext.lt mean2 mean1 then .increase else .decrease))
  else .ok none

/-- The body of the loop for one name: the messages. -/
def compareTest (ttest : TTest K) (threshold : K) (cur hist : TestData K) : Except Err (List (Timed × Direction)) := do
  let c ← compareMeans ttest threshold cur.compilationMean cur.compilationStd cur.numRuns hist.compilationMean hist.compilationStd hist.numRuns
  let e ← compareMeans ttest threshold cur.executionMean cur.executionStd cur.numRuns hist.executionMean hist.executionStd hist.numRuns
  .ok ((c.map (Prod.mk .compilation)).toList ++ (e.map (Prod.mk .execution)).toList)

/-- The loop over the matched names. -/
def compareLoop {N : Type} (ttest : TTest K) (threshold : K) : List (N × TestData K × TestData K) → Except Err (List (N × List (Timed × Direction)))
  | [] => .ok []
  | (name, cur, hist) :: rest => do
    let m ← compareTest ttest threshold cur hist
    let r ← compareLoop ttest threshold rest
    .ok (if m = [] then r else (name, m) :: r)

/-- `get_significant_differences`; `/repo/tests/performance/compare.py:271-356`. The dictionaries are lists of pairs without repeated names; the set of matched
names is taken in the order of the current ones (the code's order is unspecified, and sorted when printed). -/
def significantDifferences {N : Type} [DecidableEq N] (ttest : TTest K) (current historic : List (N × TestData K)) :
    Except Err (List (N × List (Timed × Direction))) :=
  let matched := current.filterMap fun c => (historic.find? fun h => h.1 = c.1).map fun h => (c.1, c.2, h.2)
  if matched = [] then .ok []
  else compareLoop ttest (5 / 100 / (matched.length * 2)) matched

end performance

/-! ### Copyright notice -/

section copyright

/-- Reading with universal newlines (`open(filename)`). -/
def decodeNewlines : List Char → List Char
  | [] => []
  | '\r' :: '\n' :: s => '\n' :: decodeNewlines s
  | '\r' :: s => '\n' :: decodeNewlines s
  | c :: s => c :: decodeNewlines s

/-- The two newline types. -/
inductive Newline | lf | crlf
  deriving DecidableEq

/-- Writing with `open(filename, mode="w", newline=…)`. -/
def encodeNewlines : Newline → List Char → List Char
  | .lf, s => s
  | .crlf, s => s.flatMap fun c => if c = '\n' then ['\r', '\n'] else [c]

/-- The first line of `readlines()` with `newline=""`: lines end at `\n`, `\r` or `\r\n`, which are kept. -/
def rawFirstLine : List Char → List Char
  | [] => []
  | '\r' :: '\n' :: _ => ['\r', '\n']
  | '\r' :: _ => ['\r']
  | '\n' :: _ => ['\n']
  | c :: s => c :: rawFirstLine s

/-- `guess_newline_type`; `/repo/pre_commit_hooks/check_copyright.py:65-74`. -/
def guessNewline (raw : List Char) : Newline := if ['\r', '\n'] <:+ rawFirstLine raw then .crlf else .lf

/-- The line boundaries of `str.splitlines` other than `\r\n` (there is no `\r` after universal newlines). -/
def isBreak (c : Char) : Bool :=
  c ∈ ['\n', '\r', '\x0b', '\x0c', '\x1c', '\x1d', '\x1e', '\u0085', '\u2028', '\u2029']

/-- `str.splitlines(keepends=True)` for text without `\r\n`. -/
def splitLines : List Char → List (List Char)
  | [] => []
  | c :: s =>
    if isBreak c then [c] :: splitLines s
    else match splitLines s with
      | [] => [[c]]
      | l :: ls => (c :: l) :: ls

/-- `SHEBANG`. -/
def shebang : List Char := ['#', '!']

/-- Processing of one file: whether it failed, and what the file holds afterwards;
`/repo/pre_commit_hooks/check_copyright.py:91-127`. `template` is the text of the template file as read. -/
def checkFile (template : List Char) (fix : Bool) (raw : List Char) : Bool × List Char :=
  let content := decodeNewlines raw
  let lines := splitLines content
  if content = [] then (false, raw)
  else
    let isShebang := decide (shebang <+: lines.headD [])
    let test := if isShebang then ((lines.drop 1).dropWhile (fun l => l.isEmpty)).flatten else content
    if template <+: test then (false, raw)
    else if fix then
      let new := if isShebang then lines.headD [] ++ ['\n'] ++ template ++ ['\n'] ++ (lines.drop 1).flatten
        else template ++ ['\n'] ++ lines.flatten
      (true, encodeNewlines (guessNewline raw) new)
    else (true, raw)

/-- `main` on the contents of the named files (no file named twice): exit code and contents afterwards; `/repo/pre_commit_hooks/check_copyright.py:77-128`. -/
def copyrightMain (templateRaw : List Char) (fix : Bool) (files : List (List Char)) : ℕ × List (List Char) :=
  let r := files.map (checkFile (decodeNewlines templateRaw) fix)
  (if r.any Prod.fst then 1 else 0, r.map Prod.snd)

end copyright

end Coreax
