import Verif.Model.Session
import Verif.Spec.Csr
import Verif.Spec.GraphText

/-!
# Specification: what a program over the API computes

A graph is a number of vertices and a multiset of edges (as a list up to order), each with its weight if there are weights.
-/

namespace Pigo.Session

variable {W : Type}

/-- A graph: the vertices are `0, …, n-1`; the order of the edges has no meaning. -/
structure Net (W : Type) where
  n : Nat
  es : List (Nat × Nat × Option W)

namespace Spec

/-- The two ends of an edge. -/
def ends (e : Nat × Nat × Option W) : Nat × Nat := (e.1, e.2.1)

/-- The edge in the other direction. -/
def swap (e : Nat × Nat × Option W) : Nat × Nat × Option W := (e.2.1, e.1, e.2.2)

/-- The edge with the smaller end first. -/
def order (e : Nat × Nat × Option W) : Nat × Nat × Option W := (min e.1 e.2.1, max e.1 e.2.1, e.2.2)

/-- The same edges on the same vertices. -/
def Same (s s' : Net W) : Prop := s'.n = s.n ∧ s'.es.Perm s.es

/-- `s'` has one edge of `s` for each pair of ends in `s`, with a smallest weight. -/
structure Distinct (wlt : W → W → Prop) (s s' : Net W) : Prop where
  n : s'.n = s.n
  once : (s'.es.map ends).Nodup
  some_of : ∀ e ∈ s'.es, e ∈ s.es
  all : ∀ e ∈ s.es, ends e ∈ s'.es.map ends
  smallest : ∀ e' ∈ s'.es, ∀ e ∈ s.es, ends e = ends e' → ∀ w w', e.2.2 = some w → e'.2.2 = some w' → ¬ wlt w w'

/-- What each operation does to the graph. -/
def Step (wlt : W → W → Prop) : {k k' : Kind} → Op k k' → Net W → Net W → Prop
  | _, _, .copy, s, s' => Same s s'
  | _, _, .transpose, s, s' => Same ⟨s.n, s.es.map swap⟩ s'
  | _, _, .toCsr, s, s' => Same s s'
  | _, _, .toGraph, s, s' => Same s s'
  | _, _, .toMatrix, s, s' => Same s s'
  | _, _, .toCoo .none, s, s' => Same s s'
  | _, _, .toCoo .symmetric, s, s' => Same ⟨s.n, s.es ++ s.es.map swap⟩ s'
  | _, _, .toCoo .symmetricUpper, s, s' => Same ⟨s.n, s.es.map order⟩ s'
  | _, _, .sort, s, s' => Same s s'
  | _, _, .withoutDups, s, s' => Distinct wlt s s'
  | _, _, .outGraph, s, s' => Same s s'
  | _, _, .inGraph, s, s' => Same ⟨s.n, s.es.map swap⟩ s'
  | _, _, .csr, s, s' => Same s s'
  | _, _, .csc, s, s' => Same ⟨s.n, s.es.map swap⟩ s'
  | _, _, .saveCoo .., s, s' => Same s s'
  | _, _, .saveCsr .., s, s' => Same s s'
  | _, _, .saveGraph .., s, s' => Same s s'
  | _, _, .write .., s, s' => Same ⟨Pigo.Spec.maxLabel (s.es.map ends) + 1, s.es⟩ s'

/-- What a program does to the graph. -/
def Does (wlt : W → W → Prop) : {k k' : Kind} → Prog k k' → Net W → Net W → Prop
  | _, _, .done, s, s' => s' = s
  | _, _, .step _ op p, s, s' => ∃ s1, Step wlt op s s1 ∧ Does wlt p s1 s'

/-- The edges in the arrays of a COO. -/
def cooEdges (wgt : Bool) (c : Coo W) : List (Nat × Nat × Option W) :=
  c.x.zip (c.y.zip (if wgt then c.w.map some else List.replicate c.m none))

/-- The edges in the rows of a CSR. -/
def csrEdges (wgt : Bool) (c : Csr W) : List (Nat × Nat × Option W) :=
  (List.range c.n).flatMap (fun v =>
    ((Pigo.Spec.row c v).zip (if wgt then (Pigo.Spec.rowWeights c v).map some else (Pigo.Spec.row c v).map (fun _ => none))).map
      (fun p => (v, p.1, p.2)))

/-- The CSR is valid and holds the graph. -/
structure CsrIs (wgt : Bool) (c : Csr W) (s : Net W) : Prop where
  valid : Pigo.Spec.ValidCsr c wgt
  n : c.n = s.n
  edges : (csrEdges wgt c).Perm s.es

/-- The arrays of the COO have `m` elements and hold the graph. -/
structure CooIs (wgt : Bool) (c : Coo W) (s : Net W) : Prop where
  x : c.x.length = c.m
  y : c.y.length = c.m
  w : wgt = true → c.w.length = c.m
  n : c.n = s.n
  edges : (cooEdges wgt c).Perm s.es

/-- The object holds the graph: a COO or CSR its edges, a DiGraph the edges in one graph and their reverses
in the other, a Matrix the entries in one part and their transposes in the other. -/
def Is (wgt : Bool) : (k : Kind) → Obj W k → Net W → Prop
  | .coo, c, s => CooIs wgt c s
  | .csr, c, s => CsrIs wgt c s
  | .graph, g, s => CsrIs wgt (DiGraph.outG g) s ∧ CsrIs wgt (DiGraph.inG g) ⟨s.n, s.es.map swap⟩
  | .matrix, a, s => CsrIs wgt (Matrix.csr a) s ∧ CsrIs wgt (Matrix.csc a) ⟨s.n, s.es.map swap⟩

/-- A file name that does not stand for another text format. -/
def PlainName (fn : List Byte) : Prop := ¬ str ".mtx" <:+ fn ∧ ¬ str ".graph" <:+ fn

/-- Every operation has at least one thread; text goes to files whose name stands for an edge list and whose last page is not
full. -/
def Fine : {k k' : Kind} → Prog k k' → Prop
  | _, _, .done => True
  | _, _, .step T (.write _ fn pad) p => 0 < T ∧ PlainName fn ∧ 0 < pad ∧ Fine p
  | _, _, .step T _ p => 0 < T ∧ Fine p

/-- The program writes text. -/
def Writes : {k k' : Kind} → Prog k k' → Prop
  | _, _, .done => False
  | _, _, .step _ (.write ..) _ => True
  | _, _, .step _ _ p => Writes p

/-- An upper bound for the number of edges while the program runs, from `m` edges: `symmetric` doubles it. -/
def peak : {k k' : Kind} → Prog k k' → Nat → Nat
  | _, _, .done, m => m
  | _, _, .step _ (.toCoo .symmetric) p, m => peak p (2 * m)
  | _, _, .step _ _ p, m => peak p m

/-- The program converts a CSR to a COO. -/
def Converts : {k k' : Kind} → Prog k k' → Prop
  | _, _, .done => False
  | _, _, .step _ (.toCoo _) _ => True
  | _, _, .step _ (.saveCsr .coo ..) _ => True
  | _, _, .step _ (.saveCsr .graph ..) _ => True
  | _, _, .step _ (.saveCsr .matrix ..) _ => True
  | _, _, .step _ _ p => Converts p

/-- When a program may be run on an object that holds the graph `s`: labels have at least one byte, and all sizes fit the size
byte of the header; `operator<` of weights orders them; the edges are between vertices; labels can count the vertices and
ordinals the edges, at any time; the weights are `wok`; text is not written of a graph without edges; a CSR with weights is not
converted to a COO with `std::vector` weights (for the last two see C50 and C68). -/
structure Ready (E : Types W) (wok : W → Prop) {k k' : Kind} (p : Prog k k') (s : Net W) : Prop where
  lb : 0 < E.lb ∧ E.lb < 256
  ob : E.ob < 256
  wlt : Pigo.Spec.StrictWeak E.wlt
  ends : ∀ e ∈ s.es, e.1 < s.n ∧ e.2.1 < s.n
  labels : s.n + 1 < 2 ^ (8 * E.lb)
  ordinals : peak p s.es.length < 2 ^ (8 * E.ob)
  fine : Fine p
  weights : ∀ e ∈ s.es, ∀ w, e.2.2 = some w → wok w
  edges : Writes p → s.es ≠ []
  stor : Converts p → E.wk.wgt = true → E.stor ≠ .vector

/-- Every outcome of the program is an object, and it holds the graph that the operations make of `s`. -/
def Computes (E : Types W) {k k' : Kind} (p : Prog k k') (o : Obj W k) (s : Net W) : Prop :=
  ∀ out, (p.run E o).Out out → ∃ o' s', out = .ok o' ∧ Does E.wlt p s s' ∧ Is E.wk.wgt k' o' s'

/-- The graph in an object. -/
def net (wgt : Bool) : (k : Kind) → Obj W k → Net W
  | .coo, c => ⟨Coo.n c, cooEdges wgt c⟩
  | .csr, c => ⟨Csr.n c, csrEdges wgt c⟩
  | .graph, g => ⟨(DiGraph.outG g).n, csrEdges wgt (DiGraph.outG g)⟩
  | .matrix, a => ⟨(Matrix.csr a).n, csrEdges wgt (Matrix.csr a)⟩

/-- The programs have the same operations, with any numbers of threads. -/
inductive SameOps : {k k' : Kind} → Prog k k' → Prog k k' → Prop
  | done {k : Kind} : SameOps (.done (k := k)) .done
  | step {k k' k'' : Kind} (T T' : Nat) (op : Op k k') {p p' : Prog k' k''} (h : SameOps p p') : SameOps (.step T op p) (.step T' op p')

/-- The graph of an edge list file: the vertices up to the largest label, and the edges of its lines. -/
noncomputable def fileNet (file : List Byte) : Net Unit :=
  ⟨Pigo.Spec.maxLabel (Pigo.Spec.edges file) + 1, (Pigo.Spec.edges file).map (fun e => (e.1, e.2, none))⟩

end Spec
end Pigo.Session
