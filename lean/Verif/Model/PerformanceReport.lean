import Verif.Model.Scripts
import Mathlib.Data.List.Sort

/-!
# Model of the performance report

`main` of `tests/performance/compare.py`, apart from reading arguments and files.
-/

namespace Coreax

/-- A printed part of the report, before numbers are turned into text by `format_run_time`, `/repo/tests/performance/compare.py:169-181`, and
`format_time`.  A test with significant changes is one part: its name, the old and the new data and the messages. -/
inductive ReportLine (N K : Type)
  | missingHeading
  | missingItem (name : N)
  | newHeading
  | newItem (name : N) (now : TestData K)
  | changeHeading
  | change (name : N) (old now : TestData K) (messages : List (Timed × Direction))
  | noChange
  | normalisation (compilation execution : K)

/-- What can stop the script: a library error, or `KeyError` from a dictionary. -/
inductive ReportErr
  | library (e : Err)
  | keyError
  deriving DecidableEq

section
variable {K : Type} [Field K] [LinearOrder K] {N : Type} [LinearOrder N]

/-- `d[name]` for a dictionary as a list of pairs. -/
def lookupKey {V : Type} (d : List (N × V)) (name : N) : Except ReportErr V :=
  match d.find? fun h => h.1 = name with
  | some h => .ok h.2
  | none => .error .keyError

/-- `a.keys() - b.keys()`, in the order of `a`. -/
def keysMinus {V W : Type} (a : List (N × V)) (b : List (N × W)) : List N :=
  (a.map Prod.fst).filter fun x => x ∉ b.map Prod.fst

/-- The items of the section of new tests; `/repo/tests/performance/compare.py:211-214`. -/
def newItems (current : List (N × TestData K)) : List N → Except ReportErr (List (ReportLine N K))
  | [] => .ok []
  | name :: rest => do
    let now ← lookupKey current name
    let r ← newItems current rest
    .ok (.newItem name now :: r)

/-- The items of the section of changes; `/repo/tests/performance/compare.py:223-228`. -/
def changeItems (current historic : List (N × TestData K)) : List (N × List (Timed × Direction)) → Except ReportErr (List (ReportLine N K))
  | [] => .ok []
  | (name, messages) :: rest => do
    let old ← lookupKey historic name
    let now ← lookupKey current name
    let r ← changeItems current historic rest
    .ok (.change name old now messages :: r)

/-- `main`; `/repo/tests/performance/compare.py:184-238`, from line 204 on: what is printed if nothing fails.  `perm` gives the unspecified order in which Python
goes through the set of missing names, and `perm'` that for the new names.  `norm` is the normalisation of the current data; that of the historic data is not read. -/
def performanceReport (ttest : TTest K) (perm perm' : List N → List N) (current historic : List (N × TestData K)) (norm : K × K) :
    Except ReportErr (List (ReportLine N K)) := do
  let missing := perm (keysMinus historic current)
  let new := perm' (keysMinus current historic)
  let missingPart := if missing = [] then [] else .missingHeading :: missing.map .missingItem
  let items ← newItems current new
  let newPart := if new = [] then [] else .newHeading :: items
  let changes ← match significantDifferences ttest current historic with
    | .error e => .error (.library e)
    | .ok r => .ok r
  let entries ← changeItems current historic (changes.insertionSort fun a b => a.1 ≤ b.1)
  let changePart := if changes = [] then [] else .changeHeading :: entries
  let last := if missing = [] ∧ new = [] ∧ changes = [] then [.noChange]
    else if new ≠ [] ∨ changes ≠ [] then [.normalisation norm.1 norm.2] else []
  .ok (missingPart ++ newPart ++ changePart ++ last)

end

end Coreax
