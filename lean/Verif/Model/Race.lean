import Verif.Spec.Race
import Verif.Model.Tensor
import Verif.Model.Graph
import Verif.Model.GraphFile
import Verif.Model.FindOffsets
import Verif.Model.Write

/-!
# The memory accesses of the parallel regions

`D α` is a computation of `R α` together with the statement that none of the parallel regions it can get to has a data race.
Every function with parallel regions is written again in `D`, with the accesses of each step of each region: the names of
the arrays are those of the source.  What the function does is unchanged (`Props/Race.lean`, `C85_same_…`).

Left out of the accesses of a region are reads of arrays that no thread of the region writes, and variables private to a thread
(declared inside the region, or in a `reduction` clause).  That nothing else is left out is part of what is proved: the shared
state of a region is made of locations, and the accesses must account for its steps (`Spec.Accounted`).
-/

namespace Pigo

open Spec (Access reads writes atomics Race Accounted)

/-- A computation, and that its parallel regions have no data race (and that the accesses given for them account for what their
steps do). -/
structure D (α : Type) where
  out : R α
  drf : Prop

instance : Monad D where
  pure a := ⟨pure a, True⟩
  bind p k := ⟨R.bind p.out (fun a => (k a).out), p.drf ∧ ∀ a, p.out.Out (.ok a) → (k a).drf⟩

/-- A part without parallel regions. -/
def D.run {α : Type} (p : R α) : D α := ⟨p, True⟩

/-- A parallel region with the accesses of its steps. -/
def D.par {α S : Type} (step : α → S → M S) (foot : α → S → List Access) (threads : List (List α)) (s : S) : D S :=
  ⟨R.par step threads s, ¬ Race step foot threads s ∧ Accounted step foot⟩

/-- A region between barriers in which the threads make the given accesses and whose effect is modelled elsewhere. -/
def D.touch (threads : List (List Access)) : D Unit :=
  ⟨pure (), ¬ Race (fun _ (u : Unit) => .ok u) (fun a _ => [a]) threads ()⟩

/-- Thread `tid` of `T` writes element `tid` of the array. -/
def ownElem (arr : String) (T : Nat) : List (List Access) := (List.range T).map (fun tid => [writes arr tid])

/-- The accesses of a store to an array. -/
def footStore {α β : Type} (arr : String) (a : Nat × α) (_ : β) : List Access := [writes arr a.1]

/-- The accesses of a store to one of two arrays. -/
def footStore2 {α β γ : Type} (arr arr' : String) : (Nat × α) ⊕ (Nat × β) → γ → List Access
  | .inl a, _ => [writes arr a.1]
  | .inr a, _ => [writes arr' a.1]

variable {W : Type}

/-! ## Binary files -/

/-- `parallel_write` (impl/pigo.impl.hpp 627–654): every thread copies its chunk with `memcpy`. -/
def dParWrite (T : Nat) (v : List Byte) (n : Nat) (f : WFile) : D WFile := do
  let threads ← D.run (R.lift (mapE (chunkActs (load v) f.fp n T) (List.range T)))
  let b ← D.par storeAct (footStore "wfp") threads f.bytes
  pure ⟨f.fp + n, b⟩

/-- The weights part of the `save` functions (impl/coo.impl.hpp 525–528). -/
def dSaveWeights (T : Nat) (wgt : Bool) (cw : Codec W) (m : Nat) (w : List W) (f : WFile) : D WFile :=
  if weightSize wgt cw m > 0 then dParWrite T (rawArr cw.enc w) (weightSize wgt cw m) f else pure f

/-- `COO::save` (impl/coo.impl.hpp 483–529). -/
def dSaveCoo (T lb ob : Nat) (wgt : Bool) (cw : Codec W) (c : Coo W) : D (List Byte) := do
  let f ← D.run (R.lift (openW (cooSaveSize lb ob wgt cw c)))
  let f ← D.run (R.lift (wBytes cooMagic f))
  let f ← D.run (R.lift (wBytes (encLE 1 lb) f))
  let f ← D.run (R.lift (wBytes (encLE 1 ob) f))
  let f ← D.run (R.lift (wBytes (encLE lb c.nrows) f))
  let f ← D.run (R.lift (wBytes (encLE lb c.ncols) f))
  let f ← D.run (R.lift (wBytes (encLE lb c.n) f))
  let f ← D.run (R.lift (wBytes (encLE ob c.m) f))
  let f ← dParWrite T (rawArr (encLE lb) c.x) (lb * c.m) f
  let f ← dParWrite T (rawArr (encLE lb) c.y) (lb * c.m) f
  let f ← dSaveWeights T wgt cw c.m c.w f
  pure f.bytes

/-- `CSR::save(File&)` (impl/csr.impl.hpp 456–489). -/
def dSaveCsrTo (T lb ob : Nat) (wgt : Bool) (cw : Codec W) (c : Csr W) (f : WFile) : D WFile := do
  let f ← D.run (R.lift (wBytes csrMagic f))
  let f ← D.run (R.lift (wBytes (encLE 1 lb) f))
  let f ← D.run (R.lift (wBytes (encLE 1 ob) f))
  let f ← D.run (R.lift (wBytes (encLE lb c.n) f))
  let f ← D.run (R.lift (wBytes (encLE ob c.m) f))
  let f ← D.run (R.lift (wBytes (encLE lb c.nrows) f))
  let f ← D.run (R.lift (wBytes (encLE lb c.ncols) f))
  let f ← dParWrite T (rawArr (encLE ob) c.offsets) (ob * succL lb c.n) f
  let f ← dParWrite T (rawArr (encLE lb) c.endpoints) (lb * c.m) f
  dSaveWeights T wgt cw c.m c.weights f

/-- `CSR::save(std::string)` (impl/csr.impl.hpp 444–454). -/
def dSaveCsr (T lb ob : Nat) (wgt : Bool) (cw : Codec W) (c : Csr W) : D (List Byte) := do
  let f ← D.run (R.lift (openW (csrSaveSize lb ob wgt cw c)))
  let f ← dSaveCsrTo T lb ob wgt cw c f
  pure f.bytes

/-- `DiGraph::save` (impl/graph.impl.hpp 63–81). -/
def dSaveDiGraph (T lb ob : Nat) (wgt : Bool) (cw : Codec W) (g : DiGraph W) : D (List Byte) := do
  let f ← D.run (R.lift (openW (digraphMagic.length + csrSaveSize lb ob wgt cw g.inG + csrSaveSize lb ob wgt cw g.outG)))
  let f ← D.run (R.lift (wBytes digraphMagic f))
  let f ← dSaveCsrTo T lb ob wgt cw g.inG f
  let f ← dSaveCsrTo T lb ob wgt cw g.outG f
  pure f.bytes

/-- `Tensor::save` (impl/tensor.impl.hpp 200–247). -/
def dSaveTensor (T lb ob : Nat) (wgt : Bool) (cw : Codec W) (t : Tensor W) : D (List Byte) := do
  let f ← D.run (R.lift (openW (tensorSaveSize lb ob wgt cw t)))
  let f ← D.run (R.lift (wBytes tensorMagic f))
  let f ← D.run (R.lift (wBytes (encLE 1 lb) f))
  let f ← D.run (R.lift (wBytes (encLE 1 ob) f))
  let f ← D.run (R.lift (wBytes (if wgt then encLE 1 cw.size else []) f))
  let f ← D.run (R.lift (wBytes (encLE ob t.order) f))
  let f ← D.run (R.lift (wBytes (encLE ob t.m) f))
  let f ← dParWrite T (rawArr (encLE lb) t.c) (lb * t.order * t.m) f
  let f ← dSaveWeights T wgt cw t.m t.w f
  pure f.bytes

/-- `parallel_read` (impl/pigo.impl.hpp 656–682). -/
def dParRead (T : Nat) (μ : Mapping) (dst : List Byte) (n p : Nat) : D (List Byte × Nat) := do
  let threads ← D.run (R.lift (mapE (chunkActs (fun i => μ.get (p + i)) 0 n T) (List.range T)))
  let b ← D.par storeAct (footStore "v") threads dst
  pure (b, p + n)

/-- Allocation and `parallel_read` (impl/coo.impl.hpp 552–566 and the like). -/
def dReadArr {α : Type} (T : Nat) (μ : Mapping) (k : Nat) (dec : List Byte → α) (n bytes p : Nat) : D (List α × Nat) := do
  let junk ← D.run (R.any (Nat → Byte))
  let (b, p) ← dParRead T μ (alloc junk (k * n)) bytes p
  pure (decArr k dec n b, p)

/-- The weights part of the `read_bin_` functions (impl/coo.impl.hpp 562–566). -/
def dReadWeights (T : Nat) (μ : Mapping) (wgt : Bool) (cw : Codec W) (m p : Nat) : D (List W × Nat) := do
  if weightSize wgt cw m > 0 then dReadArr T μ cw.size cw.dec m (weightSize wgt cw m) p else pure ([], p)

/-- `COO::read_bin_` (impl/coo.impl.hpp 531–567). -/
def dReadBinCoo (T lb ob : Nat) (wgt : Bool) (cw : Codec W) (μ : Mapping) (p : Nat) : D (Coo W × Nat) := do
  let p ← D.run (R.lift (rdStr μ cooMagic p))
  let (ls, p) ← D.run (R.lift (rdLE μ 1 p))
  let (os, p) ← D.run (R.lift (rdLE μ 1 p))
  let _ ← D.run (R.lift (sizeCheck ls lb))
  let _ ← D.run (R.lift (sizeCheck os ob))
  let (nrows, p) ← D.run (R.lift (rdLE μ lb p))
  let (ncols, p) ← D.run (R.lift (rdLE μ lb p))
  let (n, p) ← D.run (R.lift (rdLE μ lb p))
  let (m, p) ← D.run (R.lift (rdLE μ ob p))
  let (x, p) ← dReadArr T μ lb decLE m (lb * m) p
  let (y, p) ← dReadArr T μ lb decLE m (lb * m) p
  let (w, p) ← dReadWeights T μ wgt cw m p
  pure ({ x := x, y := y, w := w, n := n, m := m, nrows := nrows, ncols := ncols }, p)

/-- `CSR::read_bin_` (impl/csr.impl.hpp 491–528). -/
def dReadBinCsr (T lb ob : Nat) (wgt : Bool) (cw : Codec W) (μ : Mapping) (p : Nat) : D (Csr W × Nat) := do
  let p ← D.run (R.lift (rdStr μ csrMagic p))
  let (ls, p) ← D.run (R.lift (rdLE μ 1 p))
  let (os, p) ← D.run (R.lift (rdLE μ 1 p))
  let _ ← D.run (R.lift (sizeCheck ls lb))
  let _ ← D.run (R.lift (sizeCheck os ob))
  let (n, p) ← D.run (R.lift (rdLE μ lb p))
  let (m, p) ← D.run (R.lift (rdLE μ ob p))
  let (nrows, p) ← D.run (R.lift (rdLE μ lb p))
  let (ncols, p) ← D.run (R.lift (rdLE μ lb p))
  let (offsets, p) ← dReadArr T μ ob decLE (succL lb n) (ob * succL lb n) p
  let (endpoints, p) ← dReadArr T μ lb decLE m (lb * m) p
  let (weights, p) ← dReadWeights T μ wgt cw m p
  pure ({ offsets := offsets, endpoints := endpoints, weights := weights, n := n, m := m, nrows := nrows, ncols := ncols }, p)

/-- `Tensor::read_bin_` (impl/tensor.impl.hpp 249–284). -/
def dReadBinTensor (T lb ob : Nat) (wgt : Bool) (cw : Codec W) (μ : Mapping) (p : Nat) : D (Tensor W) := do
  let p ← D.run (R.lift (rdStr μ tensorMagic p))
  let (ls, p) ← D.run (R.lift (rdLE μ 1 p))
  let (os, p) ← D.run (R.lift (rdLE μ 1 p))
  let _ ← D.run (R.lift (sizeCheck ls lb))
  let _ ← D.run (R.lift (sizeCheck os ob))
  let p ← D.run (R.lift (if wgt then (rdLE μ 1 p >>= fun (ws, p) => sizeCheck ws cw.size >>= fun _ => .ok p) else .ok p))
  let (order, p) ← D.run (R.lift (rdLE μ ob p))
  let (m, p) ← D.run (R.lift (rdLE μ ob p))
  let (c, p) ← dReadArr T μ lb decLE (inOrd (8 * ob) (order * m)) (lb * order * m) p
  let (w, _) ← dReadWeights T μ wgt cw m p
  pure { c := c, w := w, order := order, m := m }

/-! ## Edge lists and Matrix Market files -/

/-- The accesses of the stores of `read_coord_entry_` (impl/coo.impl.hpp 251–316) and `convert_csr_` (96–127). -/
def footAct {β : Type} : Act W → β → List Access
  | .setX i _, _ => [writes "x_" i]
  | .setY i _, _ => [writes "y_" i]
  | .setW i _, _ => [writes "w_" i]
  | .copyW d c, _ => [reads "w_" c, writes "w_" d]

/-- `COO::read_el_` (impl/coo.impl.hpp 384–481): pass 1 ends with `nl_offsets[tid] = tid_nls` (446) before a barrier; then
one thread allocates; pass 2 stores the entries.  The threads of `readElPlan` only read the file. -/
def dReadEl (μ : Mapping) (lw ow : Nat) (cfg : Cfg) (wk : WKind W) (T : Nat) (r : Reader) : D (Coo W) := do
  let _ ← D.touch (ownElem "nl_offsets" T)
  let p ← D.run (R.lift (readElPlan μ lw ow cfg wk T r))
  let j ← D.run (R.any (Junk W))
  let mem ← D.par stepAct footAct p.threads (allocCoo wk.wgt j p.m)
  pure { x := mem.x, y := mem.y, w := mem.w, m := p.m, nrows := (p.mr + 1) % 2 ^ lw, ncols := (p.mc + 1) % 2 ^ lw
         n := if (p.mr + 1) % 2 ^ lw > (p.mc + 1) % 2 ^ lw then (p.mr + 1) % 2 ^ lw else (p.mc + 1) % 2 ^ lw }

/-- `COO::read_mm_` (impl/coo.impl.hpp 326–381). -/
def dReadMm (μ : Mapping) (lw ow : Nat) (cfg : Cfg) (wk : WKind W) (T : Nat) (r : Reader) : D (Coo W) := do
  let h ← D.run (R.lift (readMmHeader μ lw ow r))
  let c ← dReadEl μ lw ow cfg wk T h.2.2.2
  D.run (R.lift (mmCheck ow cfg h.1 h.2.1 h.2.2.1 c))

/-! ## COO to CSR -/

/-- The accesses of `++all_degs[x[e]]` under `omp atomic` (impl/csr.impl.hpp 171–175). -/
def footInc {β : Type} (x : List Nat) (e : Nat) (_ : β) : List Access :=
  match x[e]? with
  | none => []
  | some v => [atomics "all_degs" v]

/-- The accesses of a step of the scatter loop (impl/csr.impl.hpp 231–245): the atomic capture; the stores to the slot.  The
variable `this_offset_pos` of iteration `e` (236) is location `e` of the model's array of them. -/
def footScat (x offsets : List Nat) : ScatAct → Scatter W → List Access
  | .cap e, _ => writes "this_offset_pos" e :: match x[e]? with
    | none => []
    | some v => [atomics "label_degs" v]
  | .wr e, s => reads "this_offset_pos" e :: match scatSlot x offsets s e with
    | .error _ => []
    | .ok p => [writes "endpoints_" p]
  | .ww e, s => reads "this_offset_pos" e :: match scatSlot x offsets s e with
    | .error _ => []
    | .ok p => [writes "weights_" p]

/-- The first regions of `CSR::convert_coo_` (impl/csr.impl.hpp 139–190), each ended by a barrier (`omp for` has one). -/
def dCountDegrees (ow T n m : Nat) (x : List Nat) : D (List Nat × List Nat) := do
  let junkLabel ← D.run (R.any (Nat → Nat))
  let junkStart ← D.run (R.any (Nat → Nat))
  let junkAll ← D.run (R.any (Nat → Nat))
  let its ← D.run (R.choose (OmpFor n T))
  let all ← D.par storeAct (footStore "all_degs") (its.map (fun vs => vs.map (fun v => (v, 0)))) (alloc junkAll n)
  let its ← D.run (R.choose (OmpFor m T))
  let all ← D.par (incAct ow x) (footInc x) its all
  D.par (sumStep storeAct storeAct) (footStore2 "label_degs" "start_offsets")
    ((List.range T).map (fun tid =>
      (blockActs (vStart n T tid) (slice all n T tid)).map Sum.inl ++ [Sum.inr (tid, (slice all n T tid).sum)]))
    (alloc junkLabel n, alloc junkStart T)

/-- `CSR::convert_coo_` (impl/csr.impl.hpp 106–253). -/
def dConvertCoo (lw ow T : Nat) (wgt : Bool) (coo : Coo W) : D (Csr W) := do
  let n := coo.n
  let m := coo.m
  let j ← D.run (R.any (CsrJunk W))
  let (label, starts) ← dCountDegrees ow T n m coo.x
  let starts := prefixSums 0 starts
  let offsets ← D.par storeAct (footStore "offsets_") (offsetThreads n m T label starts) (alloc j.offsets (plusOne lw n))
  let its ← D.run (R.choose (OmpFor m T))
  let s ← D.par (scatStep coo.x coo.y coo.w offsets) (footScat coo.x offsets) (its.map (fun es => es.flatMap (scatIter wgt)))
    { degs := label, pos := fun _ => none, endpoints := alloc j.endpoints m,
      weights := if wgt then alloc j.weights m else [] }
  pure { offsets := offsets, endpoints := s.endpoints, weights := s.weights, n := n, m := m,
         nrows := coo.nrows, ncols := coo.ncols }

/-! ## CSR to COO, sorting, removing duplicates -/

/-- `COO::convert_csr_` (impl/coo.impl.hpp 65–129). -/
def dConvertCsr (ow T : Nat) (stor : Storage) (cfg : Cfg) (wgt : Bool) (c : Csr W) : D (Coo W) := do
  let n := c.n
  let nrows ← D.run (R.any Nat)
  let ncols ← D.run (R.any Nat)
  let m ← D.run (R.lift (if cfg.sym && !cfg.ut then .ok (c.m * 2 % 2 ^ ow)
    else if !cfg.sym && cfg.ut then .error .nyi else .ok c.m))
  if cfg.sl then D.run (R.lift (.error .nyi)) else do
    let j ← D.run (R.any (Junk W))
    let its ← D.run (R.choose (OmpDyn n T))
    let threads ← D.run (R.lift (mapE (fun vs => mapE (csrRow stor cfg wgt c) vs) its))
    let mem ← D.par stepAct footAct (threads.map List.flatten) (allocCoo wgt j m)
    pure { x := mem.x, y := mem.y, w := mem.w, n := n, m := m, nrows := nrows, ncols := ncols }

/-- The accesses of iteration `v` of `sort` (impl/csr.impl.hpp 533–567): the elements of the row are read and written, in the
endpoints and, if weighted, the weights. -/
def footSort {β : Type} (wgt : Bool) (offsets : List Nat) (v : Nat) (_ : β) : List Access :=
  match offsets[v]?, offsets[v + 1]? with
  | some s, some e => (List.range' s (e - s)).flatMap (fun i =>
      [reads "endpoints_" i, writes "endpoints_" i] ++ (if wgt then [reads "weights_" i, writes "weights_" i] else []))
  | _, _ => []

/-- `CSR::sort` (impl/csr.impl.hpp 530–569). -/
def dSortCsr (T : Nat) (wgt : Bool) (wlt : W → W → Prop) (c : Csr W) : D (Csr W) := do
  let srtL ← D.run (R.choose (IsSort (fun a b : Nat => a < b)))
  let srtP ← D.run (R.choose (IsSort (pairLt wlt)))
  let its ← D.run (R.choose (OmpDyn c.n T))
  let (ep, ws) ← D.par (sortRow wgt srtL srtP c.offsets) (footSort wgt c.offsets) its (c.endpoints, c.weights)
  pure { c with endpoints := ep, weights := ws }

/-- `CSR::new_csr_without_dups` (impl/csr.impl.hpp 571–718). -/
def dWithoutDups (lw T : Nat) (wgt : Bool) (wlt : W → W → Prop) (c : Csr W) : D (Csr W × Csr W) := do
  let c ← dSortCsr T wgt wlt c
  let n := c.n
  let junkDegs ← D.run (R.any (Nat → Nat))
  let its ← D.run (R.choose (OmpDyn n T))
  let counts ← D.run (R.lift (mapE (fun vs => mapE (fun v => dupDeg lw c v >>= fun d => .ok (v, d)) vs) its))
  let degs ← D.par storeAct (footStore "degs") counts (alloc junkDegs n)
  let newM := (counts.map (fun t => (t.map Prod.snd).sum)).sum
  let j ← D.run (R.any (CsrJunk W))
  let junkStart ← D.run (R.any (Nat → Nat))
  let starts ← D.par storeAct (footStore "start_offsets")
    ((List.range T).map (fun tid => [(tid, (slice degs n T tid).sum)])) (alloc junkStart T)
  let starts := prefixSums 0 starts
  let offsets ← D.par storeAct (footStore "new_offsets") (offsetThreads n newM T degs starts) (alloc j.offsets (plusOne lw n))
  let its ← D.run (R.choose (OmpDyn n T))
  let threads ← D.run (R.lift (mapE (fun vs => mapE (dupCopy wgt c offsets) vs) its))
  let (ep, ws) ← D.par (sumStep storeAct storeAct) (footStore2 "new_endpoints" "new_weights") (threads.map List.flatten)
    (alloc j.endpoints newM, if wgt then alloc j.weights newM else [])
  pure (c, { offsets := offsets, endpoints := ep, weights := ws, n := n, m := newM, nrows := c.nrows, ncols := c.ncols })

/-! ## Copies -/

/-- The accesses of one copied element (coo.hpp 178–197, tensor.hpp 110–124). -/
def footCopy {β : Type} (arr : String) (i : Nat) (_ : β) : List Access := [reads ("other." ++ arr) i, writes arr i]

/-- One copy loop (coo.hpp 190–197, tensor.hpp 109–115, 117–124). -/
def dCopyLoop {α : Type} (arr : String) (T k : Nat) (src dst : List α) : D (List α) := do
  let its ← D.run (R.choose (OmpFor k T))
  D.par (copyAct src) (footCopy arr) its dst

/-- The weights part (coo.hpp 189–197, tensor.hpp 116–124). -/
def dCopyWeights (T : Nat) (wgt : Bool) (m : Nat) (w : List W) (junk : Nat → W) : D (List W) :=
  if wgt then dCopyLoop "w_" T m w (alloc junk m) else pure []

/-- The copy constructor `COO(const COO&)` (coo.hpp 315–319). -/
def dCopyCoo (T : Nat) (wgt : Bool) (c : Coo W) : D (Coo W) := do
  let j ← D.run (R.any (Junk W))
  let its ← D.run (R.choose (OmpFor c.m T))
  let (x, y) ← D.par (sumStep (copyAct c.x) (copyAct c.y))
    (fun a s => match a with | .inl i => footCopy "x_" i s | .inr i => footCopy "y_" i s)
    (its.map (fun es => es.flatMap copyIter)) (alloc j.x c.m, alloc j.y c.m)
  let w ← dCopyWeights T wgt c.m c.w j.w
  pure { x := x, y := y, w := w, n := c.n, m := c.m, nrows := c.nrows, ncols := c.ncols }

/-- The copy constructor `Tensor(const Tensor&)` (tensor.hpp 203–206, `copy_` 107–126). -/
def dCopyTensor (ow T : Nat) (wgt : Bool) (t : Tensor W) : D (Tensor W) := do
  D.run (R.lift (if 2 ^ ow ≤ tensorLen ow t then .error .fuel else .ok ()))
  let jc ← D.run (R.any (Nat → Nat))
  let jw ← D.run (R.any (Nat → W))
  let c ← dCopyLoop "c_" T (tensorLen ow t) t.c (alloc jc (tensorLen ow t))
  let w ← dCopyWeights T wgt t.m t.w jw
  pure { c := c, w := w, order := t.order, m := t.m }

/-! ## `.graph` files -/

/-- `if (my_have_zero) have_zeros[tid] = true;` (impl/csr.impl.hpp 330–332) of thread `tid`: `have_zeros` is a
`std::vector<bool>` (287), whose elements are bits of words of 64 bits, the memory locations written; `per` is the number of
elements in a memory location. -/
def zeroTouch (per T : Nat) (counts : List GCount) : List (List Access) :=
  (List.range T).map (fun tid => if (counts.getD tid ⟨0, 0, false⟩).zero then [writes "have_zeros" (tid / per)] else [])

/-- What pass 1 of `read_graph_` counts (impl/csr.impl.hpp 270–329), as in `graphPlan`. -/
def graphCounts (μ : Mapping) (lw ow T : Nat) (r : Reader) : M (List GCount) := do
  let (_, _, r) ← graphHeader μ lw ow r
  let regions ← mapE (graphRegion μ r T) (List.range T)
  mapE (graphCountAll μ) regions

/-- `CSR::read_graph_` (impl/csr.impl.hpp 255–424): the regions between the barriers are the end of pass 1 (330–332), the
stores to `nl_offsets` and `int_offsets` (350–351), and pass 2 (379–404), which ends with the store to `max_labels` (an array of
its own, so it is listed apart).  `per` elements of `have_zeros` share a memory location. -/
def dReadGraphPer (per lw ow T : Nat) (μ : Mapping) (r : Reader) : D (Csr W) := do
  let counts ← D.run (R.lift (graphCounts μ lw ow T r))
  let _ ← D.touch (zeroTouch per T counts)
  let _ ← D.touch ((List.range T).map (fun tid => [writes "nl_offsets" tid, writes "int_offsets" tid]))
  let p ← D.run (R.lift (graphPlan μ lw ow T r))
  let jo ← D.run (R.any (Nat → Nat))
  let je ← D.run (R.any (Nat → Nat))
  let o ← D.run (R.lift (graphInit p.base p.n p.m (alloc jo (plusOne lw p.n))))
  let _ ← D.touch (ownElem "max_labels" T)
  let (offsets, endpoints) ← D.par (sumStep storeAct storeAct) (footStore2 "offsets_" "endpoints_") p.threads (o, alloc je p.m)
  D.run (R.lift (graphFinish lw ow p offsets endpoints))

/-- `read_graph_` as it is: `std::vector<bool> have_zeros` (impl/csr.impl.hpp 287) with 64 elements to a word. -/
def dReadGraph (lw ow T : Nat) (μ : Mapping) (r : Reader) : D (Csr W) := dReadGraphPer 64 lw ow T μ r

/-! ## Tensors -/

/-- The accesses of the stores of `Tensor::read_coord_entry_` (impl/tensor.impl.hpp 71–101). -/
def footTAct {β : Type} : TAct W → β → List Access
  | .setC i _, _ => [writes "c_" i]
  | .setW i _, _ => [writes "w_" i]

/-- `Tensor::read_el_` (impl/tensor.impl.hpp 103–198). -/
def dReadTensorEl (μ : Mapping) (lw ow : Nat) (wk : WKind W) (T : Nat) (r : Reader) : D (Tensor W) := do
  let _ ← D.touch (ownElem "nl_offsets" T)
  let p ← D.run (R.lift (tensorPlan μ lw ow wk T r))
  let jc ← D.run (R.any (Nat → Nat))
  let jw ← D.run (R.any (Nat → W))
  let mem ← D.par stepT footTAct p.threads
    { c := alloc jc (inOrd ow (p.order * p.m)), w := if wk.wgt then alloc jw p.m else [] }
  pure { c := mem.c, w := mem.w, order := p.order, m := p.m }

/-- `Tensor::max_labels` (impl/tensor.impl.hpp 373–419): each thread works on the array it allocated, then stores the
pointer in `maxes[tid]` (407). -/
def dMaxLabels (ow T : Nat) (t : Tensor W) : D (List Nat) := do
  let its ← D.run (R.choose (OmpFor t.m T))
  let _ ← D.touch (ownElem "maxes" T)
  let ms ← D.run (R.lift (mapE (fun l => maxThread ow t l (List.replicate t.order 0)) its))
  D.run (R.lift (maxMergeAll t.order ms (List.replicate t.order 0)))

/-! ## `find_offsets` and the text writers -/

/-- `FileReader::find_offsets` (impl/pigo.impl.hpp 513–625): `c_offsets[tid] = tid_c` (566) ends pass 1. -/
def dFindOffsets (μ : Mapping) (c : Byte) (T : Nat) (r : Reader) : D (List Nat) := do
  let _ ← D.touch (ownElem "c_offsets" T)
  let p ← D.run (R.lift (foPlan μ c T r))
  let junk ← D.run (R.any (Nat → Nat))
  D.par storeAct (footStore "t_c") p.2 (alloc junk p.1)

/-- Both passes of the writers (impl/coo.impl.hpp 596–656, impl/tensor.impl.hpp 313–370): `pos_offsets[tid+1] = my_size` ends
the first. -/
def dTwoPass (size : Nat → M Nat) (ascii : Nat → Nat → M (List (Nat × Byte) × Nat)) (its its' : List (List Nat)) :
    D (List Byte) := do
  let _ ← D.touch ((List.range its.length).map (fun tid => [writes "pos_offsets" (tid + 1)]))
  let sizes ← D.run (R.lift (mapE (sizeLoopE size) its))
  let offs := posOffsets sizes
  let f ← D.run (R.lift (openW (offs.getD its.length 0)))
  let threads ← D.run (R.lift (mapE (fun p : Nat × List Nat => writeLoop ascii (f.fp + p.1) p.2) (offs.zip its')))
  D.par storeAct (footStore "my_fp") threads f.bytes

/-- `COO::write` (impl/coo.impl.hpp 569–657). -/
def dWriteCoo (T : Nat) (wt : WText W) (c : Coo W) : D (List Byte) := do
  let its ← D.run (R.choose (OmpStatic c.m T))
  dTwoPass (cooLineSize wt c) (cooLineActs wt c) its its

/-- `Tensor::write` (impl/tensor.impl.hpp 286–371). -/
def dWriteTensor (T ob : Nat) (wt : WText W) (t : Tensor W) : D (List Byte) := do
  let its ← D.run (R.choose (OmpStatic t.m T))
  dTwoPass (tensorLineSize ob wt t) (tensorLineActs ob wt t) its its

/-! ## Constructors from files -/

/-- The branches of `COO::read_` (impl/coo.impl.hpp 38–45). -/
def dReadCooFmt (P : Params W) (cfg : Cfg) (μ : Mapping) (p : Nat) (ft : FileType) : D (Coo W × Nat) :=
  if ft = .matrixMarket then do
    let c ← dReadMm μ (8 * P.lb) (8 * P.ob) cfg P.wk P.T (readerAt μ p)
    pure (c, p)
  else if ft = .edgeList then do
    let c ← dReadEl μ (8 * P.lb) (8 * P.ob) cfg P.wk P.T (readerAt μ p)
    pure (c, p)
  else dReadBinCoo P.T P.lb P.ob P.wk.wgt P.cw μ p

/-- `CSR::read_` (impl/csr.impl.hpp 45–67). -/
def dReadCsr (P : Params W) (μ : Mapping) (fn : List Byte) (p : Nat) (ft : FileType) : D (Csr W × Nat) := do
  let ft ← D.run (R.lift (usedType μ fn p ft))
  if ft = .matrixMarket ∨ ft = .edgeList ∨ ft = .cooBin then do
    let (coo, p) ← dReadCooFmt P {} μ p ft
    let c ← dConvertCoo (8 * P.lb) (8 * P.ob) P.T P.wk.wgt coo
    pure (c, p)
  else if ft = .csrBin then dReadBinCsr P.T P.lb P.ob P.wk.wgt P.cw μ p
  else if ft = .graph then
    if P.wk.wgt then D.run (R.lift (.error .nyi)) else do
      let c ← dReadGraph (8 * P.lb) (8 * P.ob) P.T μ (readerAt μ p)
      pure (c, p)
  else D.run (R.lift (.error .nyi))

/-- `COO::read_` (impl/coo.impl.hpp 31–57). -/
def dReadCoo (P : Params W) (cfg : Cfg) (μ : Mapping) (fn : List Byte) (p : Nat) (ft : FileType) : D (Coo W) := do
  let ft ← D.run (R.lift (usedType μ fn p ft))
  if ft = .matrixMarket ∨ ft = .edgeList ∨ ft = .cooBin then do
    let (c, _) ← dReadCooFmt P cfg μ p ft
    pure c
  else if ft = .csrBin ∨ ft = .graph then do
    let (c, _) ← dReadCsr P μ fn p ft
    dConvertCsr (8 * P.ob) P.T P.stor cfg P.wk.wgt c
  else D.run (R.lift (.error .nyi))

/-- The binary branch of `DiGraph::read_` (impl/graph.impl.hpp 22–47). -/
def dReadDiGraphBin (P : Params W) (μ : Mapping) (fn : List Byte) (p : Nat) : D (DiGraph W) := do
  let p ← D.run (R.lift (rdStr μ digraphMagic p))
  let (inG, p) ← dReadCsr P μ fn p .auto
  let (outG, _) ← dReadCsr P μ fn p .auto
  pure ⟨inG, outG⟩

/-- `DiGraph::from_coo_` (graph.hpp 209–237). -/
def dFromCoo (lw ow T : Nat) (wgt : Bool) (coo : Coo W) : D (DiGraph W) := do
  let copy ← dCopyCoo T wgt coo
  let inG ← dConvertCoo lw ow T wgt (transposeCoo copy)
  let outG ← dConvertCoo lw ow T wgt coo
  pure { inG := inG, outG := outG }

/-- `DiGraph::read_` (impl/graph.impl.hpp 22–61). -/
def dReadDiGraph (P : Params W) (μ : Mapping) (fn : List Byte) (ft : FileType) : D (DiGraph W) := do
  let ft' ← D.run (R.lift (usedType μ fn 0 ft))
  if ft' = .digraphBin then dReadDiGraphBin P μ fn 0
  else do
    let coo ← dReadCoo P {} μ fn 0 ft
    dFromCoo (8 * P.lb) (8 * P.ob) P.T P.wk.wgt coo

/-- `Matrix::from_coo_` (matrix.hpp 128–156). -/
def dMatrixFromCoo (lw ow T : Nat) (wgt : Bool) (coo : Coo W) : D (Matrix W) := do
  let copy ← dCopyCoo T wgt coo
  let csc ← dConvertCoo lw ow T wgt (transposeCoo copy)
  let csr ← dConvertCoo lw ow T wgt coo
  pure { csr := csr, csc := csc }

/-- `Matrix(std::string)` (matrix.hpp 189–197). -/
def dReadMatrix (P : Params W) (μ : Mapping) (fn : List Byte) : D (Matrix W) := do
  let coo ← dReadCoo P {} μ fn 0 .auto
  dMatrixFromCoo (8 * P.lb) (8 * P.ob) P.T P.wk.wgt coo

/-- `Tensor::read_` (impl/tensor.impl.hpp 32–48). -/
def dReadTensor (P : Params W) (μ : Mapping) (fn : List Byte) (p : Nat) (ft : FileType) : D (Tensor W) := do
  let ft ← D.run (R.lift (usedType μ fn p ft))
  if ft = .edgeList then dReadTensorEl μ (8 * P.lb) (8 * P.ob) P.wk P.T (readerAt μ p)
  else if ft = .tensorBin then dReadBinTensor P.T P.lb P.ob P.wk.wgt P.cw μ p
  else D.run (R.lift (.error .nyi))

end Pigo
