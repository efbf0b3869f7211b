import Verif.Spec.Binary
import Verif.Spec.Ascii

/-!
# The file format of the tutorial and the output of the README program
-/

namespace Pigo.Spec

variable {W : Type}

/-- `<size:uint64_t><data>…` (docs/tutorials/read_binary.rst) with the number `size` in the header. -/
def vecFileWith (size : Nat) (cw : Codec W) (xs : List W) : List Byte := le 8 size ++ xs.flatMap cw.enc

/-- The file of the vector `xs`. -/
def vecFile (cw : Codec W) (xs : List W) : List Byte := vecFileWith xs.length cw xs

/-- The neighbours of `v` in the order of the edges `es`. -/
def nbrs (es : List (Nat × Nat)) (v : Nat) : List Nat := (es.filter (fun e => e.1 == v)).map (fun e => e.2)

/-- What the README says the program prints: for `n` vertices, `m` edges and the neighbours `ns` of vertex 0. -/
def readmeOutput (n m : Nat) (ns : List Nat) : List Byte :=
  str "number of vertices: " ++ showNat n ++ str "\nnumber of edges: " ++ showNat m ++ str "\nvertex 0's neighbors:\n" ++
    ns.flatMap (fun u => showNat u ++ str "\n")

end Pigo.Spec
