/-!
# generate_release.py

The script that builds the single header `release/pigo.hpp` out of `include/pigo.hpp` and the files it includes.  Texts are lists of
characters; files are given by their content (`fs`, `none`: the file cannot be opened).  Newline translation, encodings, the limit of the
recursion depth and the messages on standard output are left out.
-/

namespace Pigo.Release

abbrev Text := List Char

/-- What the script can end with instead of writing the header. -/
inductive Failure where
  /-- `raise Exception('Loop detected')` (generate_release.py 62–63) -/
  | loop
  /-- `open` fails -/
  | missing
  /-- `IndexError` of `l.split('"')[1]` -/
  | index
  /-- the bound of the model on the nesting is exceeded (does not occur, `C100_terminates`) -/
  | fuel
  deriving DecidableEq, Repr

/-- `for l in f`: the lines of a text, each with its newline (the last one may have none). -/
def linesOf : Text → List Text
  | [] => []
  | c :: cs =>
    if c = '\n' then ['\n'] :: linesOf cs
    else match linesOf cs with
      | [] => [[c]]
      | l :: ls => (c :: l) :: ls

/-- `sub in l`. -/
def contains (sub : Text) : Text → Bool
  | [] => sub.isEmpty
  | c :: cs => sub.isPrefixOf (c :: cs) || contains sub cs

/-- `l.split('"')[1]`. -/
def quoted (l : Text) : Option Text :=
  match l.dropWhile (· ≠ '"') with
  | [] => none
  | _ :: r => some (r.takeWhile (· ≠ '"'))

/-- `os.path.dirname` (posixpath): what precedes the last slash, without trailing slashes unless there is nothing else. -/
def dirname (p : Text) : Text :=
  let head := (p.reverse.dropWhile (· ≠ '/')).reverse
  if head.all (· = '/') then head else (head.reverse.dropWhile (· = '/')).reverse

/-- `os.path.join(a, b)` (posixpath). -/
def join (a b : Text) : Text :=
  if ['/'].isPrefixOf b then b
  else if a.isEmpty || ['/'].isSuffixOf a then a ++ b
  else a ++ ['/'] ++ b

/-- The local variables of `get_code` and the global `seen_files` (generate_release.py 59–71); the set `includes` as a list. -/
structure State where
  seen : List Text
  includes : List Text
  code : Text
  inNs : Bool

/-- `l.startswith('#include ')` -/
def isInclude (l : Text) : Bool := "#include ".toList.isPrefixOf l

/-- `'pigo' in l` for such a line -/
def isOwn (l : Text) : Bool := isInclude l && contains "pigo".toList l

/-- `'namespace pigo {' in l` -/
def opens (l : Text) : Bool := contains "namespace pigo {".toList l

/-- `l == '}\n'` -/
def closes (l : Text) : Bool := l == "}\n".toList

/-- The body of the loop over the lines of a file (generate_release.py 73–91); `rec` is the recursive call. -/
def step (rec : Text → List Text → Except Failure (List Text × List Text × Text)) (path : Text) (root : Bool) (st : State) (l : Text) :
    Except Failure State := do
  let st ←
    if isInclude l then
      if contains "pigo".toList l then
        match quoted l with
        | none => .error .index
        | some f => do
          let (seen, inc, code) ← rec (join path f) st.seen
          pure { st with seen := seen, includes := st.includes ++ inc, code := st.code ++ code }
      else pure { st with includes := st.includes ++ [l] }
    else pure st
  if st.inNs then
    if closes l then pure { st with inNs := false }
    else pure { st with code := st.code ++ l }
  else if opens l then pure { st with inNs := true, code := if root then st.code ++ l else st.code }
  else pure st

/-- `get_code(fn, root)` (generate_release.py 61–96) with the content of `seen_files`. -/
def getCode (fs : Text → Option Text) : Nat → Text → Bool → List Text → Except Failure (List Text × List Text × Text)
  | 0, _, _, _ => .error .fuel
  | k + 1, fn, root, seen =>
    if fn ∈ seen then .error .loop
    else match fs fn with
      | none => .error .missing
      | some txt => do
        let st ← (linesOf txt).foldlM (step (fun p s => getCode fs k p false s) (dirname fn) root)
          { seen := fn :: seen, includes := [], code := [], inNs := false }
        pure (st.seen, st.includes, if root then st.code ++ "\n}".toList else st.code)

/-- The elements of a Python set the lines were added to (in some order, which does not matter: they are sorted). -/
def setOf : List Text → List Text
  | [] => []
  | l :: ls => if l ∈ setOf ls then setOf ls else l :: setOf ls

/-- `write_includes` (generate_release.py 98–102): the lines of the set in ascending order (by code points), and an empty line. -/
def writeIncludes (includes : List Text) : Text :=
  ((setOf includes).mergeSort (fun a b => decide (a ≤ b))).flatten ++ "\n".toList

/-- `write_footer` (generate_release.py 52–57). -/
def footer : Text := "\n\n#endif /* PIGO_HPP */\n".toList

/-- `create_single` (generate_release.py 104–109); `hdr` is the text of `write_header` (9–50), which depends on the year. -/
def createSingle (hdr : Text) (fs : Text → Option Text) (k : Nat) (fn : Text) : Except Failure Text := do
  let (_, includes, code) ← getCode fs k fn true []
  pure (hdr ++ writeIncludes includes ++ code ++ footer)

end Pigo.Release
