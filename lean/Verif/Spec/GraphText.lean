import Verif.Spec.Edges

/-!
# Specification: a text file with one edge per line, opened without naming its type
-/

namespace Pigo.Spec

/-- `file` named `fn` is an edge list for the type detection: it does not start with `PIGO` and its name ends in neither
`.mtx` nor `.graph`. Every line is empty (apart from comments) or has an edge, and the last line ends with a newline. -/
structure PlainEdgeFile (file fn : List Byte) : Prop where
  ok : EdgeListOk file
  magic : ¬ str "PIGO" <+: file
  mtx : ¬ str ".mtx" <:+ fn
  graph : ¬ str ".graph" <:+ fn

/-- The largest label of a list of edges (0 if there are none). -/
def maxLabel (es : List (Nat × Nat)) : Nat := maxOf (es.flatMap (fun e => [e.1, e.2]))

end Pigo.Spec
