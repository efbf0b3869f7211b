import Verif.Model.Write

/-!
# Interrupted writing

The `save` and `write` functions again (`Model/Binary`, `Model/Write`), with the contents of the file at every moment: what
is found in the file if the process ends there.

The file is mapped `MAP_SHARED` (impl/pigo.impl.hpp 67–68), so every store made before the end of the process is in the file.
Stores are byte by byte; the order of the stores of one thread is the program order.
-/

namespace Pigo

variable {W α β : Type}

/-- A computation that writes a file: its outcomes, and the contents the file has at some moment. -/
structure Obs (α : Type) where
  run : R α
  seen : List Byte → Prop

/-- A computation that does not touch the file. -/
def Obs.lift (p : R α) : Obs α := ⟨p, fun _ => False⟩

instance : Monad Obs where
  pure a := ⟨pure a, fun _ => False⟩
  bind p k := ⟨p.run >>= fun a => (k a).run, fun s => p.seen s ∨ ∃ a, p.run.Out (.ok a) ∧ (k a).seen s⟩

/-- `File(fn, WRITE, max_size)` (impl/pigo.impl.hpp 22–77) on a file with the contents `old` (or none): `fopen(fn, "w")` empties it,
`fputc` after `fseeko` gives it its size when `fclose` writes the buffer. -/
def openO (old : List Byte) (size : Nat) : Obs WFile :=
  ⟨R.lift (openW size), fun s => s = old ∨ (0 < size ∧ (s = [] ∨ s = List.replicate (size - 1) 0 ++ [1]))⟩

/-- `write(fp, val)` (impl/pigo.impl.hpp 173–186). -/
def wBytesO (bs : List Byte) (f : WFile) : Obs WFile :=
  ⟨R.lift (wBytes bs f), fun s => ∃ k, runActs storeAct ((blockActs f.fp bs).take k) f.bytes = .ok s⟩

/-- A parallel region whose threads store to the file: any number of the steps of any interleaving. -/
def parO (threads : List (List (Nat × Byte))) (bytes : List Byte) : Obs (List Byte) :=
  ⟨R.par storeAct threads bytes, fun s => ∃ sched k, Interleave threads sched ∧ runActs storeAct (sched.take k) bytes = .ok s⟩

/-- `parallel_write` (impl/pigo.impl.hpp 627–654) -/
def parWriteO (T : Nat) (v : List Byte) (n : Nat) (f : WFile) : Obs WFile := do
  let threads ← Obs.lift (R.lift (mapE (chunkActs (load v) f.fp n T) (List.range T)))
  let b ← parO threads f.bytes
  pure ⟨f.fp + n, b⟩

/-- The weights part of the `save` functions (impl/coo.impl.hpp 525–528). -/
def saveWeightsO (T : Nat) (wgt : Bool) (cw : Codec W) (m : Nat) (w : List W) (f : WFile) : Obs WFile :=
  if weightSize wgt cw m > 0 then parWriteO T (rawArr cw.enc w) (weightSize wgt cw m) f else pure f

/-- `COO::save` (impl/coo.impl.hpp 483–529) over a file with the contents `old`. -/
def saveCooO (old : List Byte) (T lb ob : Nat) (wgt : Bool) (cw : Codec W) (c : Coo W) : Obs (List Byte) := do
  let f ← openO old (cooSaveSize lb ob wgt cw c)
  let f ← wBytesO cooMagic f
  let f ← wBytesO (encLE 1 lb) f
  let f ← wBytesO (encLE 1 ob) f
  let f ← wBytesO (encLE lb c.nrows) f
  let f ← wBytesO (encLE lb c.ncols) f
  let f ← wBytesO (encLE lb c.n) f
  let f ← wBytesO (encLE ob c.m) f
  let f ← parWriteO T (rawArr (encLE lb) c.x) (lb * c.m) f
  let f ← parWriteO T (rawArr (encLE lb) c.y) (lb * c.m) f
  let f ← saveWeightsO T wgt cw c.m c.w f
  pure f.bytes

/-- `CSR::save(File&)` (impl/csr.impl.hpp 456–489) -/
def saveCsrToO (T lb ob : Nat) (wgt : Bool) (cw : Codec W) (c : Csr W) (f : WFile) : Obs WFile := do
  let f ← wBytesO csrMagic f
  let f ← wBytesO (encLE 1 lb) f
  let f ← wBytesO (encLE 1 ob) f
  let f ← wBytesO (encLE lb c.n) f
  let f ← wBytesO (encLE ob c.m) f
  let f ← wBytesO (encLE lb c.nrows) f
  let f ← wBytesO (encLE lb c.ncols) f
  let f ← parWriteO T (rawArr (encLE ob) c.offsets) (ob * succL lb c.n) f
  let f ← parWriteO T (rawArr (encLE lb) c.endpoints) (lb * c.m) f
  saveWeightsO T wgt cw c.m c.weights f

/-- `CSR::save(std::string)` (impl/csr.impl.hpp 444–454) -/
def saveCsrO (old : List Byte) (T lb ob : Nat) (wgt : Bool) (cw : Codec W) (c : Csr W) : Obs (List Byte) := do
  let f ← openO old (csrSaveSize lb ob wgt cw c)
  let f ← saveCsrToO T lb ob wgt cw c f
  pure f.bytes

/-- `DiGraph::save` (impl/graph.impl.hpp 63–81) -/
def saveDiGraphO (old : List Byte) (T lb ob : Nat) (wgt : Bool) (cw : Codec W) (g : DiGraph W) : Obs (List Byte) := do
  let f ← openO old (digraphMagic.length + csrSaveSize lb ob wgt cw g.inG + csrSaveSize lb ob wgt cw g.outG)
  let f ← wBytesO digraphMagic f
  let f ← saveCsrToO T lb ob wgt cw g.inG f
  let f ← saveCsrToO T lb ob wgt cw g.outG f
  pure f.bytes

/-- `Tensor::save` (impl/tensor.impl.hpp 200–247) -/
def saveTensorO (old : List Byte) (T lb ob : Nat) (wgt : Bool) (cw : Codec W) (t : Tensor W) : Obs (List Byte) := do
  let f ← openO old (tensorSaveSize lb ob wgt cw t)
  let f ← wBytesO tensorMagic f
  let f ← wBytesO (encLE 1 lb) f
  let f ← wBytesO (encLE 1 ob) f
  let f ← wBytesO (if wgt then encLE 1 cw.size else []) f
  let f ← wBytesO (encLE ob t.order) f
  let f ← wBytesO (encLE ob t.m) f
  let f ← parWriteO T (rawArr (encLE lb) t.c) (lb * t.order * t.m) f
  let f ← saveWeightsO T wgt cw t.m t.w f
  pure f.bytes

/-- Both passes of the text writers (impl/coo.impl.hpp 596–656, impl/tensor.impl.hpp 313–370). -/
def twoPassO (old : List Byte) (size : Nat → M Nat) (ascii : Nat → Nat → M (List (Nat × Byte) × Nat)) (its its' : List (List Nat)) :
    Obs (List Byte) := do
  let sizes ← Obs.lift (R.lift (mapE (sizeLoopE size) its))
  let offs := posOffsets sizes
  let f ← openO old (offs.getD its.length 0)
  let threads ← Obs.lift (R.lift (mapE (fun p : Nat × List Nat => writeLoop ascii (f.fp + p.1) p.2) (offs.zip its')))
  parO threads f.bytes

/-- `COO::write` (impl/coo.impl.hpp 569–657) -/
def writeCooO (old : List Byte) (T : Nat) (wt : WText W) (c : Coo W) : Obs (List Byte) := do
  let its ← Obs.lift (R.choose (OmpStatic c.m T))
  twoPassO old (cooLineSize wt c) (cooLineActs wt c) its its

/-- `Tensor::write` (impl/tensor.impl.hpp 286–371) -/
def writeTensorO (old : List Byte) (T ob : Nat) (wt : WText W) (t : Tensor W) : Obs (List Byte) := do
  let its ← Obs.lift (R.choose (OmpStatic t.m T))
  twoPassO old (tensorLineSize ob wt t) (tensorLineActs ob wt t) its its

/-! The outcomes are those of the functions of `Model/Binary` and `Model/Write`. -/

theorem parWriteO_run (T : Nat) (v : List Byte) (n : Nat) (f : WFile) : (parWriteO T v n f).run = parWrite T v n f := rfl

theorem saveWeightsO_run (T : Nat) (wgt : Bool) (cw : Codec W) (m : Nat) (w : List W) (f : WFile) :
    (saveWeightsO T wgt cw m w f).run = saveWeights T wgt cw m w f := by
  unfold saveWeightsO saveWeights
  split <;> rfl

theorem Obs.bind_run (p : Obs α) (k : α → Obs β) : (p >>= k).run = p.run >>= fun a => (k a).run := rfl
theorem Obs.lift_run (p : R α) : (Obs.lift p).run = p := rfl
theorem Obs.pure_run (a : α) : (pure a : Obs α).run = pure a := rfl

theorem saveCooO_run (old : List Byte) (T lb ob : Nat) (wgt : Bool) (cw : Codec W) (c : Coo W) :
    (saveCooO old T lb ob wgt cw c).run = saveCoo T lb ob wgt cw c := by
  unfold saveCooO saveCoo
  simp only [Obs.bind_run, parWriteO_run, saveWeightsO_run, Obs.pure_run]
  rfl

theorem saveCsrToO_run (T lb ob : Nat) (wgt : Bool) (cw : Codec W) (c : Csr W) (f : WFile) :
    (saveCsrToO T lb ob wgt cw c f).run = saveCsrTo T lb ob wgt cw c f := by
  unfold saveCsrToO saveCsrTo
  simp only [Obs.bind_run, parWriteO_run, saveWeightsO_run]
  rfl

theorem saveCsrO_run (old : List Byte) (T lb ob : Nat) (wgt : Bool) (cw : Codec W) (c : Csr W) :
    (saveCsrO old T lb ob wgt cw c).run = saveCsr T lb ob wgt cw c := by
  unfold saveCsrO saveCsr
  simp only [Obs.bind_run, saveCsrToO_run, Obs.pure_run]
  rfl

theorem saveDiGraphO_run (old : List Byte) (T lb ob : Nat) (wgt : Bool) (cw : Codec W) (g : DiGraph W) :
    (saveDiGraphO old T lb ob wgt cw g).run = saveDiGraph T lb ob wgt cw g := by
  unfold saveDiGraphO saveDiGraph
  simp only [Obs.bind_run, saveCsrToO_run, Obs.pure_run]
  rfl

theorem saveTensorO_run (old : List Byte) (T lb ob : Nat) (wgt : Bool) (cw : Codec W) (t : Tensor W) :
    (saveTensorO old T lb ob wgt cw t).run = saveTensor T lb ob wgt cw t := by
  unfold saveTensorO saveTensor
  simp only [Obs.bind_run, parWriteO_run, saveWeightsO_run, Obs.pure_run]
  rfl

theorem writeCooO_run (old : List Byte) (T : Nat) (wt : WText W) (c : Coo W) : (writeCooO old T wt c).run = writeCoo T wt c := rfl

theorem writeTensorO_run (old : List Byte) (T ob : Nat) (wt : WText W) (t : Tensor W) :
    (writeTensorO old T ob wt t).run = writeTensor T ob wt t := rfl

end Pigo
