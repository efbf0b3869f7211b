import Verif.Model.Release

/-!
# Specification: what a header stands for

The text a compiler sees in the place of a header whose `#include`s of own files are replaced by those files, the code it declares in
namespace `pigo`, and the system headers that are included for a set of defined macros.
-/

namespace Pigo.Release.Spec

/-- The lines of the file `fn` with every `#include` of an own file replaced by the lines of that file, and the names of the files in
the order in which they are read.  `none`: a file is missing or the files include each other more than `k` levels deep. -/
def expand (fs : Text → Option Text) : Nat → Text → Option (List Text × List Text)
  | 0, _ => none
  | k + 1, fn => do
    let txt ← fs fn
    let parts ← (linesOf txt).mapM (fun l =>
      if isOwn l then do
        let f ← quoted l
        expand fs k (join (dirname fn) f)
      else some ([], [l]))
    pure (fn :: parts.flatMap (·.1), parts.flatMap (·.2))

/-- The lines inside `namespace pigo { … }`: those after a line that opens it, up to the next line `}`. -/
def inside : Bool → List Text → List Text
  | _, [] => []
  | true, l :: ls => if closes l then inside false ls else l :: inside true ls
  | false, l :: ls => inside (opens l) ls

/-- A file is written the way the script expects: own files are included outside of the namespace, and the namespace is closed at the end
(by a line `}`). -/
def neat : Bool → List Text → Bool
  | b, [] => !b
  | true, l :: ls => !isOwn l && neat (!closes l) ls
  | false, l :: ls => !(isOwn l && opens l) && neat (opens l) ls

/-- A file of the library: as above, its last line ends with a newline, and no `#include` line also opens the namespace. -/
def Neat (txt : Text) : Prop :=
  neat false (linesOf txt) = true ∧ (txt = [] ∨ txt.getLast? = some '\n') ∧ ∀ l ∈ linesOf txt, isInclude l = true → opens l = false

/-- The main file: one `namespace pigo {` … `}`, before the own files it includes. -/
def MainNeat (txt : Text) : Prop :=
  ∃ pre l body rest, linesOf txt = pre ++ l :: (body ++ "}\n".toList :: rest) ∧ (∀ x ∈ pre, isOwn x = false ∧ opens x = false) ∧
    opens l = true ∧ isOwn l = false ∧ (∀ x ∈ body, isOwn x = false ∧ closes x = false) ∧ ∀ x ∈ rest, opens x = false

/-- An `#include` of a system header (a file that is not an own one). -/
def isSys (l : Text) : Bool := isInclude l && !isOwn l

/-- The text put before the code: complete lines, none of which opens the namespace or includes anything. -/
def Header (hdr : Text) : Prop :=
  (hdr = [] ∨ hdr.getLast? = some '\n') ∧ ∀ l ∈ linesOf hdr, opens l = false ∧ isInclude l = false

/-- Conditional compilation: what a line does to the conditions it is under. -/
inductive Directive where
  | ifdef (name : Text)
  | ifndef (name : Text)
  | els
  | endif
  | none
  deriving DecidableEq

/-- The word at the start of a text. -/
def word (t : Text) : Text := (t.dropWhile (· = ' ')).takeWhile (fun c => c ≠ ' ' ∧ c ≠ '\n')

/-- The directive of a line (`#if` with an expression is not treated, nor are macros defined on the way). -/
def directive (l : Text) : Directive :=
  let t := l.dropWhile (· = ' ')
  if "#ifdef ".toList.isPrefixOf t then .ifdef (word (t.drop 7))
  else if "#ifndef ".toList.isPrefixOf t then .ifndef (word (t.drop 8))
  else if "#else".toList.isPrefixOf t then .els
  else if "#endif".toList.isPrefixOf t then .endif
  else .none

/-- The conditions after a line. -/
def conds (defs : List Text) (st : List Bool) (l : Text) : List Bool :=
  match directive l with
  | .ifdef m => decide (m ∈ defs) :: st
  | .ifndef m => decide (m ∉ defs) :: st
  | .els => match st with
    | b :: st => (!b) :: st
    | [] => []
  | .endif => st.tail
  | .none => st

/-- The lines that are compiled when exactly the macros `defs` are defined. -/
def active (defs : List Text) : List Bool → List Text → List Text
  | _, [] => []
  | st, l :: ls => (if st.all id then [l] else []) ++ active defs (conds defs st l) ls

end Pigo.Release.Spec
