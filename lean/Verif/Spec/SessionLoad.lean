import Verif.Spec.Session
import Verif.Spec.MatrixMarket
import Verif.Spec.GraphFile

/-!
# Specification: the graphs in text files
-/

namespace Pigo.Session.Spec

variable {W : Type}

/-- The edge of an entry of a file, with its weight if there are weights. -/
def entryEdge (wgt : Bool) (e : Nat × Nat × W) : Nat × Nat × Option W := (e.1, e.2.1, if wgt then some e.2.2 else none)

/-- The graph of the entries of an edge list: the vertices up to the largest label. -/
def entriesNet (wgt : Bool) (es : List (Nat × Nat × W)) : Net W :=
  ⟨Pigo.Spec.maxLabel (es.map (fun e => (e.1, e.2.1))) + 1, es.map (entryEdge wgt)⟩

/-- The graph of a Matrix Market file: one vertex more than the larger declared size, labels being kept one-based. -/
def mmNet (wgt : Bool) (nr nc : Nat) (es : List (Nat × Nat × W)) : Net W :=
  ⟨max (nr + 1) (nc + 1), es.map (entryEdge wgt)⟩

/-- The graph of adjacency lists. -/
def rowsNet (rows : List (List Nat)) : Net Unit :=
  ⟨rows.length, (List.range rows.length).flatMap (fun v => (rows.getD v []).map (fun u => (v, u, none)))⟩

end Pigo.Session.Spec
