import Verif.Model.Write
import Verif.Model.Graph
import Verif.Model.Examples

/-!
# The programs of the documentation text

The program of the tutorial on binary files (docs/tutorials/read_binary.rst), its counterpart that writes such a file, and the
program of README.md.
-/

namespace Pigo

variable {W : Type}

/-- The second program of docs/tutorials/read_binary.rst (102–131), for elements with the representation `cw` (`int32_t` there): the vector
it passes on.  `new int32_t[size]` throws if the size in bytes does not fit `ptrdiff_t`; other failures to allocate are left out. -/
def readVec (T : Nat) (cw : Codec W) (μ : Mapping) : R (List W) := do
  -- ROFile fin { argv[1] };  uint64_t size = fin.read<uint64_t>();
  let (size, p) ← R.lift (rdLE μ 8 0)
  -- int32_t* vec = new int32_t[size];
  if 2 ^ 63 ≤ cw.size * size then R.lift (.error .error) else do
    -- fin.parallel_read((char*)vec, sizeof(int32_t)*size);
    let (vec, _) ← readArr T μ cw.size cw.dec size (cw.size * size) p
    pure vec

/-- A program that writes such a file with the interface of the library (pigo.hpp: `WFile`, `write`, `parallel_write`):
`WFile out {fn, 8 + sizeof(T)*size}; out.write(size); out.parallel_write((char*)vec, sizeof(T)*size);`. -/
def writeVec (T : Nat) (cw : Codec W) (xs : List W) : R (List Byte) := do
  let f ← R.lift (openW (8 + cw.size * xs.length))
  let f ← R.lift (wBytes (encLE 8 xs.length) f)
  let f ← parWrite T (rawArr cw.enc xs) (cw.size * xs.length) f
  pure f.bytes

/-- The program of README.md (25–44): its output, for a graph file `fn` with content `μ`.  `Graph` has 32-bit labels and
ordinals; the model takes the sizes of `P`.  Numbers are printed by `operator<<`, which is trusted to print them in decimal. -/
def readmeProg (P : Params Unit) (μ : Mapping) (fn : List Byte) : R (List Byte) := do
  let g ← readCsr P μ fn 0 .auto
  let g := g.1
  let ns ← R.lift (neighbors (8 * P.lb) (8 * P.ob) g 0)
  pure (str "number of vertices: " ++ str (toString g.n) ++ str "\n" ++ str "number of edges: " ++ str (toString g.m) ++ str "\n" ++
    str "vertex 0's neighbors:\n" ++ ns.flatMap (fun u => str (toString u) ++ str "\n"))

/-- The cleaning program of docs/tutorials/simple_graph_cleaner.rst (57–109), with the template parameters 4–6 of the first `COO`
as `cfg`: `true, true, true` in the program, `false, false, true` in the variant for directed graphs the text describes (25–27).
Simplified as `cleanGraph`. -/
def cleanWith (cfg : Cfg) (P : Params Unit) (μ : Mapping) (fn : List Byte) : R (List Byte) := do
  let coo ← readCoo P cfg μ fn 0 .auto
  let csr ← convertCoo (8 * P.lb) (8 * P.ob) P.T false coo
  let r ← withoutDups (8 * P.lb) P.T false (fun _ _ => False) csr
  let out ← convertCsr (8 * P.ob) P.T .shared {} false r.2
  writeCoo P.T wtNone out

end Pigo
