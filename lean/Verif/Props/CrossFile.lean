import Verif.Spec.RowsOf
import Verif.Props.Examples
import Verif.Props.MatrixMarket
import Verif.Props.Binary2

/-!
# Files of one kind loaded into another class

C81: `CSR(fn)`, `DiGraph(fn)`, `Matrix(fn)` and `COO(fn)` with the type guessed, on Matrix Market files, edge lists and saved
COO and CSR objects.
-/

namespace Pigo

variable {W : Type}

theorem rowsOf_of {n : Nat} {c : Coo W} {wgt : Bool} {es es0 : List (Nat × Nat × W)} {r : Csr W} (h : FromEntries n c wgt es r)
    (hc : Holds c wgt es0) (hl : es0.length = es.length) : Spec.RowsOf r wgt n es := by
  have hv := fromEntries_valid h
  obtain ⟨h1, h2, _, _, es', hp, hi⟩ := h
  refine ⟨hv, h1, by rw [h2, hc.m, hl], fun v hv => ?_, fun hw v hv => ?_⟩
  · rw [hi.row (groupRows_get es' hv), List.map_map]
    exact (hp.filter _).map _
  · rw [hi.row (groupRows_get es' hv), hi.rowWeights hw (groupRows_get es' hv), List.zip_map', List.map_id'' (by intro p; rfl)]
    exact (hp.filter _).map _

theorem convert_rowsOf {lw ow T : Nat} (hT : 0 < T) {wgt : Bool} {c : Coo W} {es : List (Nat × Nat × W)} {n nr nc : Nat}
    (hc : Spec.CooIs c wgt es n nr nc) (hlab : ∀ e ∈ es, e.1 < n ∧ e.2.1 < n) (hm : es.length < 2 ^ ow) (hfit : Spec.OffsetsFit lw n) :
    (convertCoo lw ow T wgt c).All (fun r => Spec.RowsOf r wgt n es) := by
  obtain ⟨hh, rfl, rfl, rfl⟩ := hc
  refine (convertCoo_all hT hh (fun e he => (hlab e he).1) (by rw [hh.m]; exact hm) hfit).mono ?_
  rintro r ⟨h1, h2, h3, es', h4, _, h5⟩
  exact rowsOf_of ⟨by rw [h5.n]; simp [groupRows], h1, h2, h3, es', h4, h5⟩ hh rfl

theorem twoGraphs_rowsOf {lw ow T : Nat} (hT : 0 < T) {wgt : Bool} {c : Coo W} {es : List (Nat × Nat × W)} {n nr nc : Nat}
    (hc : Spec.CooIs c wgt es n nr nc) (hlab : ∀ e ∈ es, e.1 < n ∧ e.2.1 < n) (hm : es.length < 2 ^ ow) (hfit : Spec.OffsetsFit lw n) :
    (fromCoo lw ow T wgt c).All (fun g => (Spec.RowsOf g.outG wgt n es ∧ g.outG.nrows = nr ∧ g.outG.ncols = nc) ∧
      Spec.RowsOf g.inG wgt n (Spec.transposed es)) := by
  obtain ⟨hh, rfl, rfl, rfl⟩ := hc
  refine (twoGraphs_all hT hh hlab (by rw [hh.m]; exact hm) hfit).mono ?_
  rintro g ⟨h1, h2⟩
  exact ⟨⟨rowsOf_of h1 hh rfl, h1.2.2.1, h1.2.2.2.1⟩, rowsOf_of h2 hh (by rw [Spec.transposed, List.length_map])⟩

/-- What `Matrix(fn)` gives when `COO(fn)` gives the entries `es`. -/
theorem matrix_of_coo (P : Params W) (hT : 0 < P.T) (μ : Mapping) (fn : List Byte) (es : List (Nat × Nat × W)) (n nr nc : Nat)
    (h : (readCoo P {} μ fn 0 .auto).All (fun c => Spec.CooIs c P.wk.wgt es n nr nc)) (hlab : ∀ e ∈ es, e.1 < n ∧ e.2.1 < n)
    (hm : es.length < 2 ^ (8 * P.ob)) (hfit : Spec.OffsetsFit (8 * P.lb) n) :
    (readMatrix P μ fn).All (fun a => Spec.RowsOf a.csr P.wk.wgt n es ∧ Spec.RowsOf a.csc P.wk.wgt n (Spec.transposed es) ∧
      a.nrows = nr ∧ a.ncols = nc) := by
  refine R.All.bind h (fun c hc => ?_)
  have := matrixFromCoo_eq (Q := fun o i => (Spec.RowsOf o P.wk.wgt n es ∧ o.nrows = nr ∧ o.ncols = nc) ∧
      Spec.RowsOf i P.wk.wgt n (Spec.transposed es)) (twoGraphs_rowsOf (lw := 8 * P.lb) (ow := 8 * P.ob) hT hc hlab hm hfit)
  refine this.mono ?_
  rintro a ⟨⟨h1, h2, h3⟩, h4⟩
  exact ⟨h1, h4, h2, h3⟩

/-- What `DiGraph(fn)` gives when `COO(fn)` gives the entries `es` and the file is not a saved DiGraph. -/
theorem digraph_of_coo (P : Params W) (hT : 0 < P.T) (μ : Mapping) (fn : List Byte) (es : List (Nat × Nat × W)) (n nr nc : Nat)
    {t : FileType} (ht : usedType μ fn 0 .auto = .ok t) (hne : t ≠ .digraphBin)
    (h : (readCoo P {} μ fn 0 .auto).All (fun c => Spec.CooIs c P.wk.wgt es n nr nc)) (hlab : ∀ e ∈ es, e.1 < n ∧ e.2.1 < n)
    (hm : es.length < 2 ^ (8 * P.ob)) (hfit : Spec.OffsetsFit (8 * P.lb) n) :
    (readDiGraph P μ fn .auto).All (fun g => Spec.RowsOf g.outG P.wk.wgt n es ∧ Spec.RowsOf g.inG P.wk.wgt n (Spec.transposed es)) := by
  unfold readDiGraph
  refine R.All.step ht ?_
  rw [if_neg hne]
  refine R.All.bind h (fun c hc => ?_)
  refine (twoGraphs_rowsOf (lw := 8 * P.lb) (ow := 8 * P.ob) hT hc hlab hm hfit).mono ?_
  rintro g ⟨⟨h1, _⟩, h2⟩
  exact ⟨h1, h2⟩

/-- What `CSR(fn)` gives when `COO(fn)` gives the entries `es` and the file holds a COO. -/
theorem csr_of_coo (P : Params W) (hT : 0 < P.T) (μ : Mapping) (fn : List Byte) (es : List (Nat × Nat × W)) (n nr nc : Nat)
    {t : FileType} (ht : usedType μ fn 0 .auto = .ok t) (hcoo : t = .matrixMarket ∨ t = .edgeList ∨ t = .cooBin)
    (h : (readCoo P {} μ fn 0 .auto).All (fun c => Spec.CooIs c P.wk.wgt es n nr nc)) (hlab : ∀ e ∈ es, e.1 < n ∧ e.2.1 < n)
    (hm : es.length < 2 ^ (8 * P.ob)) (hfit : Spec.OffsetsFit (8 * P.lb) n) :
    (readCsr P μ fn 0 .auto).All (fun r => Spec.RowsOf r.1 P.wk.wgt n es) := by
  unfold readCsr
  refine R.All.step ht ?_
  rw [if_pos hcoo]
  have hf : (readCooFmt P {} μ 0 t).All (fun p => Spec.CooIs p.1 P.wk.wgt es n nr nc) := by
    intro o ho
    have hh := h (match o with | .error f => .error f | .ok p => .ok p.1) (by
      unfold readCoo
      refine ⟨.ok t, ht.symm, ?_⟩
      dsimp only
      rw [if_pos hcoo]
      refine ⟨o, ho, ?_⟩
      cases o with
      | error f => rfl
      | ok p => exact rfl)
    cases o with
    | error f => obtain ⟨_, h', _⟩ := hh; cases h'
    | ok p => obtain ⟨a, h', ha⟩ := hh; cases h'; exact ⟨p, rfl, ha⟩
  refine R.All.bind hf ?_
  rintro ⟨c, p⟩ hc
  exact R.All.bind (convert_rowsOf (lw := 8 * P.lb) (ow := 8 * P.ob) hT hc hlab hm hfit) (fun r hr => R.All.pure hr)

/-! ## what `COO(fn)` gives -/

/-- `COO(fn)` on a text file of entries, with or without weights. -/
theorem readCoo_text (P : Params W) (hT : 0 < P.T) (hlb : 0 < P.lb) (μ : Mapping) (hpad : 0 < μ.pad) (fn : List Byte)
    (hmagic : ¬ str "PIGO" <+: μ.bytes) (hmtx : ¬ str ".mtx" <:+ fn) (hgraph : ¬ str ".graph" <:+ fn)
    {entry : List Byte → Option (Nat × Nat × W)} {wp : Nat × Nat × W → Prop} (hf : Format P.wk entry wp)
    (hok : Spec.FileOk entry μ.bytes) (hwp : ∀ e ∈ Spec.entries entry μ.bytes, wp e)
    (hlab : ∀ e ∈ Spec.entries entry μ.bytes, e.1 + 1 < 2 ^ (8 * P.lb) ∧ e.2.1 + 1 < 2 ^ (8 * P.lb))
    (hm : (Spec.entries entry μ.bytes).length < 2 ^ (8 * P.ob)) :
    usedType μ fn 0 .auto = .ok .edgeList ∧
    (readCoo P {} μ fn 0 .auto).All (fun c => Spec.CooIs c P.wk.wgt (Spec.entries entry μ.bytes)
      (max (Spec.rowDim (Spec.entries entry μ.bytes)) (Spec.colDim (Spec.entries entry μ.bytes)))
      (Spec.rowDim (Spec.entries entry μ.bytes)) (Spec.colDim (Spec.entries entry μ.bytes))) := by
  have ht : usedType μ fn 0 .auto = .ok .edgeList := by
    rw [usedType, if_pos rfl, C45_by_name _ _ _ (fun hh => hmagic (by simpa using hh.1)), if_neg hmtx, if_neg hgraph]
  refine ⟨ht, ?_⟩
  unfold readCoo
  refine R.All.step ht ?_
  rw [if_pos (by decide)]
  unfold readCooFmt
  rw [if_neg (by decide), if_pos rfl]
  refine R.All.bind (R.All.bind (P := fun c => c = cooOf (8 * P.lb) {} P.wk.wgt (Spec.entries entry μ.bytes)) ?_
    (fun c hc => R.All.pure (Q := fun p : Coo W × Nat => p.1 = cooOf (8 * P.lb) {} P.wk.wgt (Spec.entries entry μ.bytes)) hc)) ?_
  · intro out hout
    have hrun : LoadEdgeList μ (8 * P.lb) (8 * P.ob) {} P.wk P.T out := hout
    exact ⟨_, load_any hpad (hf.ok _) hok hwp (fun e he => by have := hlab e he; omega) {} hT
      (.inr (fun en _ => stored_plain_ne en)) (by rw [storedAll_plain]; exact hm) hrun, rfl⟩
  · rintro ⟨c, p⟩ hc
    dsimp only at hc
    subst hc
    refine R.All.pure ?_
    have hh := cooOf_holds (8 * P.lb) {} P.wk.wgt (Spec.entries entry μ.bytes)
    rw [storedAll_plain] at hh
    obtain ⟨d1, d2⟩ := cooOf_dims (cfg := {}) (wgt := P.wk.wgt) (by omega : 0 < 8 * P.lb) hlab
    have hp : prims ({} : Cfg) (Spec.entries entry μ.bytes) = Spec.entries entry μ.bytes := by
      rw [prims_eq_stored (.inl rfl), storedAll_plain]
    rw [hp] at d1 d2
    refine ⟨hh, ?_, d1, d2⟩
    show max (cooOf (8 * P.lb) {} P.wk.wgt (Spec.entries entry μ.bytes)).nrows (cooOf (8 * P.lb) {} P.wk.wgt (Spec.entries entry μ.bytes)).ncols = _
    rw [d1, d2]
    rfl

theorem dims_bound (es : List (Nat × Nat × W)) : ∀ e ∈ es, e.1 < max (Spec.rowDim es) (Spec.colDim es) ∧ e.2.1 < max (Spec.rowDim es) (Spec.colDim es) := by
  intro e he
  have h1 := le_maxOf (List.mem_map_of_mem (f := fun e : Nat × Nat × W => e.1) he)
  have h2 := le_maxOf (List.mem_map_of_mem (f := fun e : Nat × Nat × W => e.2.1) he)
  unfold Spec.rowDim Spec.colDim
  omega

/-- `COO(fn)` on a Matrix Market file named `….mtx`. -/
theorem readCoo_mm (P : Params W) (hT : 0 < P.T) (μ : Mapping) (hpad : 0 < μ.pad) (fn : List Byte) (hfn : str ".mtx" <:+ fn)
    {nr nc N : Nat} {body : List (List Byte)} (h : Spec.MmFile μ.bytes nr nc N body)
    {entry : List Byte → Option (Nat × Nat × W)} {wp : Nat × Nat × W → Prop} (hf : Format P.wk entry wp)
    (hok : Spec.BodyOk entry body) (hwp : ∀ en ∈ Spec.entriesOf entry body, wp en)
    (hc : MmConsistent (8 * P.lb) (8 * P.ob) nr nc N (Spec.entriesOf entry body)) :
    usedType μ fn 0 .auto = .ok .matrixMarket ∧
    (readCoo P {} μ fn 0 .auto).All (fun c => Spec.CooIs c P.wk.wgt (Spec.entriesOf entry body) (max (nr + 1) (nc + 1)) (nr + 1) (nc + 1)) := by
  have ht : usedType μ fn 0 .auto = .ok .matrixMarket := by
    rw [usedType, if_pos rfl, C45_by_name _ _ _ ?_, if_pos hfn]
    intro hh
    have h1 : str "PIGO" <+: μ.bytes := by simpa using hh.1
    have h2 := h.banner
    obtain ⟨t1, e1⟩ := h1
    obtain ⟨t2, e2⟩ := h2
    rw [← e2] at e1
    cases e1
  refine ⟨ht, ?_⟩
  unfold readCoo
  refine R.All.step ht ?_
  rw [if_pos (by decide)]
  unfold readCooFmt
  rw [if_pos rfl]
  refine R.All.bind (P := fun p : Coo W × Nat => Spec.CooIs p.1 P.wk.wgt (Spec.entriesOf entry body) (max (nr + 1) (nc + 1)) (nr + 1) (nc + 1)) ?_
    (fun p hp => R.All.pure hp)
  refine R.All.bind (P := fun c => Spec.CooIs c P.wk.wgt (Spec.entriesOf entry body) (max (nr + 1) (nc + 1)) (nr + 1) (nc + 1)) ?_
    (fun c hc => R.All.pure hc)
  intro out hout
  obtain ⟨c, h1, h2, _, h3, h4, h5⟩ := C21_matrix_market μ hpad _ _ _ hT h hf hok hwp hc out hout
  exact ⟨c, h1, h2, h5, h3, h4⟩

/-! ## C81 -/

/-- C81, text files of entries (with weights of any kind, or without): the CSR, the DiGraph and the Matrix loaded from the file
hold exactly its entries; the second graph of a DiGraph and the CSC of a Matrix hold them transposed. -/
theorem C81_text_file (P : Params W) (hT : 0 < P.T) (hlb : 0 < P.lb) (μ : Mapping) (hpad : 0 < μ.pad) (fn : List Byte)
    (hmagic : ¬ str "PIGO" <+: μ.bytes) (hmtx : ¬ str ".mtx" <:+ fn) (hgraph : ¬ str ".graph" <:+ fn)
    {entry : List Byte → Option (Nat × Nat × W)} {wp : Nat × Nat × W → Prop} (hf : Format P.wk entry wp)
    (hok : Spec.FileOk entry μ.bytes) (es : List (Nat × Nat × W)) (hes : es = Spec.entries entry μ.bytes) (hwp : ∀ e ∈ es, wp e)
    (hlab : ∀ e ∈ es, e.1 + 1 < 2 ^ (8 * P.lb) ∧ e.2.1 + 1 < 2 ^ (8 * P.lb)) (hm : es.length < 2 ^ (8 * P.ob))
    (n : Nat) (hn : n = max (Spec.rowDim es) (Spec.colDim es)) (hfit : Spec.OffsetsFit (8 * P.lb) n) :
    (readCsr P μ fn 0 .auto).All (fun r => Spec.RowsOf r.1 P.wk.wgt n es) ∧
    (readDiGraph P μ fn .auto).All (fun g => Spec.RowsOf g.outG P.wk.wgt n es ∧ Spec.RowsOf g.inG P.wk.wgt n (Spec.transposed es)) ∧
    (readMatrix P μ fn).All (fun a => Spec.RowsOf a.csr P.wk.wgt n es ∧ Spec.RowsOf a.csc P.wk.wgt n (Spec.transposed es) ∧
      a.nrows = Spec.rowDim es ∧ a.ncols = Spec.colDim es) := by
  subst hes
  subst hn
  obtain ⟨ht, hc⟩ := readCoo_text P hT hlb μ hpad fn hmagic hmtx hgraph hf hok hwp hlab hm
  have hb := dims_bound (Spec.entries entry μ.bytes)
  exact ⟨csr_of_coo P hT μ fn _ _ _ _ ht (.inr (.inl rfl)) hc hb hm hfit, digraph_of_coo P hT μ fn _ _ _ _ ht (by decide) hc hb hm hfit,
    matrix_of_coo P hT μ fn _ _ _ _ hc hb hm hfit⟩

/-- C81, Matrix Market files: the same; the dimensions are the declared ones plus one. -/
theorem C81_matrix_market (P : Params W) (hT : 0 < P.T) (μ : Mapping) (hpad : 0 < μ.pad) (fn : List Byte) (hfn : str ".mtx" <:+ fn)
    {nr nc N : Nat} {body : List (List Byte)} (h : Spec.MmFile μ.bytes nr nc N body)
    {entry : List Byte → Option (Nat × Nat × W)} {wp : Nat × Nat × W → Prop} (hf : Format P.wk entry wp)
    (hok : Spec.BodyOk entry body) (es : List (Nat × Nat × W)) (hes : es = Spec.entriesOf entry body) (hwp : ∀ en ∈ es, wp en)
    (hc : MmConsistent (8 * P.lb) (8 * P.ob) nr nc N es) (n : Nat) (hn : n = max (nr + 1) (nc + 1)) (hfit : Spec.OffsetsFit (8 * P.lb) n) :
    (readCsr P μ fn 0 .auto).All (fun r => Spec.RowsOf r.1 P.wk.wgt n es) ∧
    (readDiGraph P μ fn .auto).All (fun g => Spec.RowsOf g.outG P.wk.wgt n es ∧ Spec.RowsOf g.inG P.wk.wgt n (Spec.transposed es)) ∧
    (readMatrix P μ fn).All (fun a => Spec.RowsOf a.csr P.wk.wgt n es ∧ Spec.RowsOf a.csc P.wk.wgt n (Spec.transposed es) ∧
      a.nrows = nr + 1 ∧ a.ncols = nc + 1) := by
  subst hes
  subst hn
  obtain ⟨ht, hcoo⟩ := readCoo_mm P hT μ hpad fn hfn h hf hok hwp hc
  have hb : ∀ e ∈ Spec.entriesOf entry body, e.1 < max (nr + 1) (nc + 1) ∧ e.2.1 < max (nr + 1) (nc + 1) := by
    intro e he
    have := hc.rows e he
    have := hc.cols e he
    omega
  have hm : (Spec.entriesOf entry body).length < 2 ^ (8 * P.ob) := by rw [hc.count]; exact hc.fitN
  exact ⟨csr_of_coo P hT μ fn _ _ _ _ ht (.inl rfl) hcoo hb hm hfit, digraph_of_coo P hT μ fn _ _ _ _ ht (by decide) hcoo hb hm hfit,
    matrix_of_coo P hT μ fn _ _ _ _ hcoo hb hm hfit⟩

theorem R.All.of_bind {α β : Type} {p : R α} {k : α → R β} {Q : β → Prop} (h : (p >>= k).All Q) {a : α} (ha : p.Out (.ok a)) :
    (k a).All Q := fun o ho => h o ⟨.ok a, ha, ho⟩

theorem R.All.bindOut {α β : Type} {p : R α} {k : α → R β} {P : α → Prop} {Q : β → Prop} (hp : p.All P)
    (hk : ∀ a, p.Out (.ok a) → P a → (k a).All Q) : (p >>= k).All Q := by
  rintro out ⟨o, ho, h⟩
  obtain ⟨a, rfl, ha⟩ := hp o ho
  exact hk a ho ha out h

theorem pow256 (k : Nat) : 256 ^ k = 2 ^ (8 * k) := by rw [Nat.pow_mul]

theorem fitsCsr_room {lb ob : Nat} {wgt : Bool} {cw : Codec W} {c : Csr W} (h : Spec.FitsCsr lb ob wgt cw c) : Spec.OffsetsFit (8 * lb) c.n :=
  h.room.imp (fun h => by omega) (fun h => by rw [← pow256]; exact h)

/-- C81, saved COO objects: the same, with the dimensions of the COO. -/
theorem C81_saved_coo (P : Params W) (T : Nat) (hT : 0 < T) (hT' : 0 < P.T) (hlb : P.lb < 256) (hob : P.ob < 256)
    (c : Coo W) (h : Spec.FitsCoo P.lb P.ob P.wk.wgt P.cw c) (fn : List Byte) (pad : Nat)
    (es : List (Nat × Nat × W)) (hes : Holds c P.wk.wgt es) (hlab : ∀ e ∈ es, e.1 < c.n ∧ e.2.1 < c.n)
    (hfit : Spec.OffsetsFit (8 * P.lb) c.n) :
    (saveCoo T P.lb P.ob P.wk.wgt P.cw c >>= fun bs => readCsr P ⟨bs, pad⟩ fn 0 .auto).All (fun r => Spec.RowsOf r.1 P.wk.wgt c.n es) ∧
    (saveCoo T P.lb P.ob P.wk.wgt P.cw c >>= fun bs => readDiGraph P ⟨bs, pad⟩ fn .auto).All
      (fun g => Spec.RowsOf g.outG P.wk.wgt c.n es ∧ Spec.RowsOf g.inG P.wk.wgt c.n (Spec.transposed es)) ∧
    (saveCoo T P.lb P.ob P.wk.wgt P.cw c >>= fun bs => readMatrix P ⟨bs, pad⟩ fn).All
      (fun a => Spec.RowsOf a.csr P.wk.wgt c.n es ∧ Spec.RowsOf a.csc P.wk.wgt c.n (Spec.transposed es) ∧
        a.nrows = c.nrows ∧ a.ncols = c.ncols) := by
  have hs := saveCoo_all hT P.cw h
  have hr := C37_coo_roundtrip P T hT hT' hlb hob {} c h fn pad .auto (.inl rfl)
  have hm : es.length < 2 ^ (8 * P.ob) := by rw [← hes.m, ← pow256]; exact h.m
  have key : ∀ bs, (saveCoo T P.lb P.ob P.wk.wgt P.cw c).Out (.ok bs) → bs = cooBytes P.lb P.ob P.wk.wgt P.cw c →
      usedType ⟨bs, pad⟩ fn 0 .auto = .ok .cooBin ∧
      (readCoo P {} ⟨bs, pad⟩ fn 0 .auto).All (fun r => Spec.CooIs r P.wk.wgt es c.n c.nrows c.ncols) := by
    intro bs hbs hb
    refine ⟨?_, (R.All.of_bind hr hbs).mono ?_⟩
    · unfold usedType
      rw [if_pos rfl, hb, cooBytes_eq]
      exact (C45_saved P.lb P.ob pad P.wk.wgt P.cw fn c ⟨[], [], [], 0, 0, 0, 0⟩ ⟨⟨[], [], [], 0, 0, 0, 0⟩, ⟨[], [], [], 0, 0, 0, 0⟩⟩ ⟨[], [], 0, 0⟩).1
    · rintro r rfl
      exact ⟨hes, rfl, rfl, rfl⟩
  refine ⟨R.All.bindOut hs (fun bs hbs hb => ?_), R.All.bindOut hs (fun bs hbs hb => ?_), R.All.bindOut hs (fun bs hbs hb => ?_)⟩
  · obtain ⟨ht, hc⟩ := key bs hbs hb
    exact csr_of_coo P hT' _ fn _ _ _ _ ht (.inr (.inr rfl)) hc hlab hm hfit
  · obtain ⟨ht, hc⟩ := key bs hbs hb
    exact digraph_of_coo P hT' _ fn _ _ _ _ ht (by decide) hc hlab hm hfit
  · obtain ⟨_, hc⟩ := key bs hbs hb
    exact matrix_of_coo P hT' _ fn _ _ _ _ hc hlab hm hfit

/-- Loading a saved CSR as a COO is converting it. -/
theorem readCoo_savedCsr (P : Params W) (T : Nat) (hT : 0 < T) (hT' : 0 < P.T) (hlb : P.lb < 256) (hob : P.ob < 256) (cfg : Cfg)
    (c : Csr W) (h : Spec.FitsCsr P.lb P.ob P.wk.wgt P.cw c) (fn : List Byte) (pad : Nat) (o : M (Coo W)) :
    (saveCsr T P.lb P.ob P.wk.wgt P.cw c >>= fun bs => readCoo P cfg ⟨bs, pad⟩ fn 0 .auto).Out o →
      (convertCsr (8 * P.ob) P.T P.stor cfg P.wk.wgt c).Out o := by
  have hs := saveCsr_all hT P.cw h
  rintro ⟨o1, h1, h2⟩
  obtain ⟨bs, rfl, hb⟩ := hs o1 h1
  have ht : usedType ⟨bs, pad⟩ fn 0 .auto = .ok .csrBin := by
    unfold usedType
    rw [if_pos rfl, hb, csrBytes_eq]
    exact (C45_saved P.lb P.ob pad P.wk.wgt P.cw fn ⟨[], [], [], 0, 0, 0, 0⟩ c ⟨⟨[], [], [], 0, 0, 0, 0⟩, ⟨[], [], [], 0, 0, 0, 0⟩⟩ ⟨[], [], 0, 0⟩).2.1
  obtain ⟨o2, h3, h4⟩ := h2
  rw [ht] at h3
  cases h3
  dsimp only at h4
  rw [if_neg (by decide), if_pos (by decide)] at h4
  obtain ⟨o3, h5, h6⟩ := h4
  have hr := C38_csr_roundtrip P T hT hT' hlb hob c h fn pad .csrBin (.inr rfl)
  obtain ⟨r, rfl, hr⟩ := hr o3 ⟨.ok bs, h1, h5⟩
  obtain ⟨r, p⟩ := r
  dsimp only at hr h6
  rw [hr] at h6
  exact h6

theorem readArr_any {α : Type} (T : Nat) (μ : Mapping) (k : Nat) (dec : List Byte → α) (n bytes p : Nat) :
    (readArr T μ k dec n bytes p).Any :=
  R.Any.bind R.Any.any (fun _ => R.Any.bind (R.Any.bind (R.Any.lift _) (fun _ => R.Any.bind (R.Any.par ..) (fun _ => R.Any.pure _)))
    (fun _ => R.Any.pure _))

theorem readWeights_any (T : Nat) (μ : Mapping) (wgt : Bool) (cw : Codec W) (m p : Nat) : (readWeights T μ wgt cw m p).Any := by
  unfold readWeights
  split
  · exact readArr_any ..
  · exact R.Any.pure _

theorem readBinCsr_any (T lb ob : Nat) (wgt : Bool) (cw : Codec W) (μ : Mapping) (p : Nat) : (readBinCsr T lb ob wgt cw μ p).Any := by
  refine R.Any.bind (R.Any.lift _) (fun _ => R.Any.bind (R.Any.lift _) (fun _ => R.Any.bind (R.Any.lift _) (fun _ => ?_)))
  refine R.Any.bind (R.Any.lift _) (fun _ => R.Any.bind (R.Any.lift _) (fun _ => R.Any.bind (R.Any.lift _) (fun _ => ?_)))
  refine R.Any.bind (R.Any.lift _) (fun _ => R.Any.bind (R.Any.lift _) (fun _ => R.Any.bind (R.Any.lift _) (fun _ => ?_)))
  exact R.Any.bind (readArr_any ..) (fun _ => R.Any.bind (readArr_any ..) (fun _ => R.Any.bind (readWeights_any ..) (fun _ => R.Any.pure _)))

/-- Every execution of the conversion is one of loading the saved CSR as a COO. -/
theorem readCoo_savedCsr_conv (P : Params W) (T : Nat) (hT : 0 < T) (hT' : 0 < P.T) (hlb : P.lb < 256) (hob : P.ob < 256) (cfg : Cfg)
    (c : Csr W) (h : Spec.FitsCsr P.lb P.ob P.wk.wgt P.cw c) (fn : List Byte) (pad : Nat) (o : M (Coo W))
    (ho : (convertCsr (8 * P.ob) P.T P.stor cfg P.wk.wgt c).Out o) :
    ∃ bs, (saveCsr T P.lb P.ob P.wk.wgt P.cw c).Out (.ok bs) ∧ (readCoo P cfg ⟨bs, pad⟩ fn 0 .auto).Out o := by
  obtain ⟨o1, h1⟩ := (C37_saves_run T P.lb P.ob P.wk.wgt P.cw ⟨[], [], [], 0, 0, 0, 0⟩ c ⟨[], [], 0, 0⟩).2.1
  obtain ⟨bs, rfl, hb⟩ := saveCsr_all hT P.cw h o1 h1
  have ht : usedType ⟨bs, pad⟩ fn 0 .auto = .ok .csrBin := by
    unfold usedType
    rw [if_pos rfl, hb, csrBytes_eq]
    exact (C45_saved P.lb P.ob pad P.wk.wgt P.cw fn ⟨[], [], [], 0, 0, 0, 0⟩ c ⟨⟨[], [], [], 0, 0, 0, 0⟩, ⟨[], [], [], 0, 0, 0, 0⟩⟩ ⟨[], [], 0, 0⟩).2.1
  refine ⟨bs, h1, .ok .csrBin, ht.symm, ?_⟩
  dsimp only
  rw [if_neg (by decide), if_pos (by decide)]
  have hany : (readCsr P ⟨bs, pad⟩ fn 0 .csrBin).Any := by
    unfold readCsr
    refine R.Any.bindAll (R.Any.lift _) (R.All.lift (a := FileType.csrBin) (Q := fun t => t = FileType.csrBin) rfl rfl) ?_
    rintro _ rfl
    rw [if_neg (by decide), if_pos rfl]
    exact readBinCsr_any ..
  obtain ⟨o3, h5⟩ := hany
  obtain ⟨r, rfl, hr⟩ := C38_csr_roundtrip P T hT hT' hlb hob c h fn pad .csrBin (.inr rfl) o3 ⟨.ok bs, h1, h5⟩
  refine ⟨_, h5, ?_⟩
  obtain ⟨r, p⟩ := r
  dsimp only at hr ⊢
  rw [hr]
  exact ho

theorem csrEntry_flagged {cfg : Cfg} (p : Nat × Nat) : csrEntry cfg p.1 p.2 = Spec.flagged cfg p := by
  unfold csrEntry Spec.flagged
  cases cfg.sym <;> cases cfg.ut <;> simp
  split
  · rw [Nat.min_eq_right (by omega), Nat.max_eq_left (by omega)]
  · rw [Nat.min_eq_left (by omega), Nat.max_eq_right (by omega)]

/-- C81, saved CSR objects loaded as a COO: the entries row by row, with the flags applied. -/
theorem C81_saved_csr_as_coo [Inhabited W] (P : Params W) (T : Nat) (hT : 0 < T) (hT' : 0 < P.T) (hlb : P.lb < 256) (hob : P.ob < 256)
    (cfg : Cfg) (hsl : cfg.sl = false) (hut : cfg.ut = true → cfg.sym = true) (c : Csr W) (h : Spec.FitsCsr P.lb P.ob P.wk.wgt P.cw c)
    (hv : Spec.ValidCsr c P.wk.wgt) (hs : P.wk.wgt = true → P.stor ≠ .vector) (hm : 2 * c.m < 2 ^ (8 * P.ob)) (fn : List Byte) (pad : Nat) :
    (saveCsr T P.lb P.ob P.wk.wgt P.cw c >>= fun bs => readCoo P cfg ⟨bs, pad⟩ fn 0 .auto).All (fun r => r.n = c.n ∧
      r.x.length = r.m ∧ r.y.length = r.m ∧ r.x.zip r.y = (Spec.pairs c).flatMap (Spec.flagged cfg) ∧
      (P.wk.wgt = true → Holds r true ((Spec.triples c).flatMap (fun t => (Spec.flagged cfg (t.1, t.2.1)).map (fun q => (q.1, q.2, t.2.2)))))) := by
  intro o ho
  have hi := isCsr_of_valid hv (default : W)
  have hf : csrFactor cfg * c.m < 2 ^ (8 * P.ob) := by unfold csrFactor; split <;> omega
  obtain ⟨r, rfl, hn, hh⟩ := convertCsr_all (T := P.T) hi hs hsl hut hf o (readCoo_savedCsr P T hT hT' hlb hob cfg c h fn pad o ho)
  obtain ⟨h1, h2, h3⟩ := holds_xy hh
  refine ⟨r, rfl, hn, h2, h3, ?_, ?_⟩
  · rw [h1, csrEntries_xy hi cfg]
    apply flatMap_congr'
    intro p _
    exact csrEntry_flagged p
  · intro hw
    rw [hw] at hi hh
    rw [csrEntries_triples hi cfg] at hh
    have : (fun t : Nat × Nat × W => (csrEntry cfg t.1 t.2.1).map (fun q => (q.1, q.2, t.2.2))) =
        fun t => (Spec.flagged cfg (t.1, t.2.1)).map (fun q => (q.1, q.2, t.2.2)) := by
      funext t
      rw [← csrEntry_flagged (cfg := cfg) (t.1, t.2.1)]
    rwa [this] at hh

/-- C81: with the flags that `COO(CSR&)` does not implement, loading a saved CSR as a COO throws. -/
theorem C81_saved_csr_flags (P : Params W) (T : Nat) (hT : 0 < T) (hT' : 0 < P.T) (hlb : P.lb < 256) (hob : P.ob < 256)
    (cfg : Cfg) (hcfg : cfg.sl = true ∨ (cfg.ut = true ∧ cfg.sym = false)) (c : Csr W) (h : Spec.FitsCsr P.lb P.ob P.wk.wgt P.cw c)
    (fn : List Byte) (pad : Nat) (o : M (Coo W))
    (ho : (saveCsr T P.lb P.ob P.wk.wgt P.cw c >>= fun bs => readCoo P cfg ⟨bs, pad⟩ fn 0 .auto).Out o) : o = .error .nyi :=
  C28_not_yet_implemented _ _ _ cfg hcfg _ c o (readCoo_savedCsr P T hT hT' hlb hob cfg c h fn pad o ho)

/-- What `COO(fn)` gives on a saved CSR: the entries row by row; `nrows()` and `ncols()` are not set. -/
theorem readCoo_savedCsr_is [Inhabited W] (P : Params W) (T : Nat) (hT : 0 < T) (hT' : 0 < P.T) (hlb : P.lb < 256) (hob : P.ob < 256)
    (c : Csr W) (h : Spec.FitsCsr P.lb P.ob P.wk.wgt P.cw c)
    (hv : Spec.ValidCsr c P.wk.wgt) (hs : P.wk.wgt = true → P.stor ≠ .vector) (hl : ∀ p ∈ Spec.pairs c, p.2 < c.n) :
    ∃ es : List (Nat × Nat × W), es.map (fun e => (e.1, e.2.1)) = Spec.pairs c ∧ (P.wk.wgt = true → es = Spec.triples c) ∧
      es.length < 2 ^ (8 * P.ob) ∧ (∀ e ∈ es, e.1 < c.n ∧ e.2.1 < c.n) ∧
      ∀ (fn : List Byte) (pad : Nat) (bs : List Byte), (saveCsr T P.lb P.ob P.wk.wgt P.cw c).Out (.ok bs) →
        usedType ⟨bs, pad⟩ fn 0 .auto = .ok .csrBin ∧
        (readCoo P {} ⟨bs, pad⟩ fn 0 .auto).All (fun r => Spec.CooIs r P.wk.wgt es c.n r.nrows r.ncols) := by
  have hi := isCsr_of_valid hv (default : W)
  have hm : c.m < 2 ^ (8 * P.ob) := by rw [← pow256]; exact h.m
  generalize rowsOfCsr P.wk.wgt default c = rows at hi
  have hxy := csrEntries_xy hi {}
  have hp : (Spec.pairs c).flatMap (fun p => csrEntry {} p.1 p.2) = Spec.pairs c := by
    have : (fun p : Nat × Nat => csrEntry {} p.1 p.2) = fun p => [p] := by funext p; rfl
    rw [this, List.flatMap_singleton']
  rw [hp] at hxy
  refine ⟨csrEntries {} rows, hxy, ?_, ?_, ?_, ?_⟩
  · intro hw
    rw [hw] at hi
    rw [csrEntries_triples hi {}]
    have : (fun t : Nat × Nat × W => (csrEntry {} t.1 t.2.1).map (fun q => (q.1, q.2, t.2.2))) = fun t => [t] := by funext t; rfl
    rw [this, List.flatMap_singleton']
  · have := congrArg List.length hxy
    rw [List.length_map, ← ValidCsr.pairs_length hi] at this
    omega
  · intro e he
    have hmem : (e.1, e.2.1) ∈ Spec.pairs c := by rw [← hxy]; exact List.mem_map_of_mem (f := fun e => (e.1, e.2.1)) he
    refine ⟨?_, hl _ hmem⟩
    obtain ⟨v, hv, hu⟩ := List.mem_flatMap.mp hmem
    obtain ⟨u, _, hu⟩ := List.mem_map.mp hu
    injection hu with hu _
    rw [← hu]
    exact List.mem_range.mp hv
  · intro fn pad bs hbs
    constructor
    · obtain ⟨bs', h', hb⟩ := saveCsr_all hT P.cw h _ hbs
      cases h'
      unfold usedType
      rw [if_pos rfl, hb, csrBytes_eq]
      exact (C45_saved P.lb P.ob pad P.wk.wgt P.cw fn ⟨[], [], [], 0, 0, 0, 0⟩ c ⟨⟨[], [], [], 0, 0, 0, 0⟩, ⟨[], [], [], 0, 0, 0, 0⟩⟩ ⟨[], [], 0, 0⟩).2.1
    · intro o ho
      obtain ⟨r, rfl, hrn, hh⟩ := convertCsr_all (ow := 8 * P.ob) (T := P.T) (cfg := {}) hi hs rfl (fun h => by cases h)
        (by simpa [csrFactor] using hm) o (readCoo_savedCsr P T hT hT' hlb hob {} c h fn pad o ⟨_, hbs, ho⟩)
      exact ⟨r, rfl, hh, hrn, rfl, rfl⟩

/-- C81, a DiGraph loaded from a saved CSR: its entries, and transposed. -/
theorem C81_saved_csr_as_digraph [Inhabited W] (P : Params W) (T : Nat) (hT : 0 < T) (hT' : 0 < P.T) (hlb : P.lb < 256) (hob : P.ob < 256)
    (c : Csr W) (h : Spec.FitsCsr P.lb P.ob P.wk.wgt P.cw c)
    (hv : Spec.ValidCsr c P.wk.wgt) (hs : P.wk.wgt = true → P.stor ≠ .vector) (hl : ∀ p ∈ Spec.pairs c, p.2 < c.n) (fn : List Byte) (pad : Nat) :
    (saveCsr T P.lb P.ob P.wk.wgt P.cw c >>= fun bs => readDiGraph P ⟨bs, pad⟩ fn .auto).All (fun g =>
      ∃ es : List (Nat × Nat × W), es.map (fun e => (e.1, e.2.1)) = Spec.pairs c ∧ (P.wk.wgt = true → es = Spec.triples c) ∧
        Spec.RowsOf g.outG P.wk.wgt c.n es ∧ Spec.RowsOf g.inG P.wk.wgt c.n (Spec.transposed es)) := by
  obtain ⟨es, h1, h2, h3, h4, h5⟩ := readCoo_savedCsr_is P T hT hT' hlb hob c h hv hs hl
  have hfit : Spec.OffsetsFit (8 * P.lb) c.n := fitsCsr_room h
  refine R.All.bindOut (saveCsr_all hT P.cw h) (fun bs hbs _ => ?_)
  obtain ⟨ht, hc⟩ := h5 fn pad bs hbs
  unfold readDiGraph
  refine R.All.step ht ?_
  rw [if_neg (by decide)]
  refine R.All.bind hc (fun r hr => ?_)
  refine (twoGraphs_rowsOf (lw := 8 * P.lb) (ow := 8 * P.ob) hT' hr h4 h3 hfit).mono ?_
  rintro g ⟨⟨h6, _⟩, h7⟩
  exact ⟨es, h1, h2, h6, h7⟩

/-- C81, proved part for a Matrix loaded from a saved CSR: its entries. -/
theorem C81_saved_csr_as_matrix_partial [Inhabited W] (P : Params W) (T : Nat) (hT : 0 < T) (hT' : 0 < P.T) (hlb : P.lb < 256) (hob : P.ob < 256)
    (c : Csr W) (h : Spec.FitsCsr P.lb P.ob P.wk.wgt P.cw c)
    (hv : Spec.ValidCsr c P.wk.wgt) (hs : P.wk.wgt = true → P.stor ≠ .vector) (hl : ∀ p ∈ Spec.pairs c, p.2 < c.n) (fn : List Byte) (pad : Nat) :
    (saveCsr T P.lb P.ob P.wk.wgt P.cw c >>= fun bs => readMatrix P ⟨bs, pad⟩ fn).All (fun a =>
      ∃ es : List (Nat × Nat × W), es.map (fun e => (e.1, e.2.1)) = Spec.pairs c ∧ (P.wk.wgt = true → es = Spec.triples c) ∧
        Spec.RowsOf a.csr P.wk.wgt c.n es ∧ Spec.RowsOf a.csc P.wk.wgt c.n (Spec.transposed es)) := by
  obtain ⟨es, h1, h2, h3, h4, h5⟩ := readCoo_savedCsr_is P T hT hT' hlb hob c h hv hs hl
  have hfit : Spec.OffsetsFit (8 * P.lb) c.n := fitsCsr_room h
  refine R.All.bindOut (saveCsr_all hT P.cw h) (fun bs hbs _ => ?_)
  refine R.All.bind (h5 fn pad bs hbs).2 (fun r hr => ?_)
  have := matrixFromCoo_eq (Q := fun o i => Spec.RowsOf o P.wk.wgt c.n es ∧ Spec.RowsOf i P.wk.wgt c.n (Spec.transposed es))
    ((twoGraphs_rowsOf (lw := 8 * P.lb) (ow := 8 * P.ob) hT' hr h4 h3 hfit).mono (fun g hg => ⟨hg.1.1, hg.2⟩))
  exact this.mono (fun a ha => ⟨es, h1, h2, ha.1, ha.2⟩)

theorem matrixFromCoo_any [Nonempty W] {lw ow T : Nat} (hT : 0 < T) (wgt : Bool) (c : Coo W) : (matrixFromCoo lw ow T wgt c).Any :=
  R.Any.bind (copyCoo_any hT wgt c) (fun _ => R.Any.bind (convertCoo_any hT wgt _) (fun _ =>
    R.Any.bind (convertCoo_any hT wgt _) (fun _ => R.Any.pure _)))

/-- C81 does not hold for the dimensions of a Matrix loaded from a saved CSR: whatever CSR was saved, `nrows()` and `ncols()` are
what the memory of the intermediate COO contained; every pair of values is possible. -/
theorem C81_saved_csr_matrix_dims_violated [Inhabited W] (P : Params W) (T : Nat) (hT : 0 < T) (hT' : 0 < P.T) (hlb : P.lb < 256) (hob : P.ob < 256)
    (c : Csr W) (h : Spec.FitsCsr P.lb P.ob P.wk.wgt P.cw c)
    (hv : Spec.ValidCsr c P.wk.wgt) (hs : P.wk.wgt = true → P.stor ≠ .vector) (hl : ∀ p ∈ Spec.pairs c, p.2 < c.n) (fn : List Byte) (pad : Nat)
    (nr nc : Nat) :
    ∃ a : Matrix W, (saveCsr T P.lb P.ob P.wk.wgt P.cw c >>= fun bs => readMatrix P ⟨bs, pad⟩ fn).Out (.ok a) ∧ a.nrows = nr ∧ a.ncols = nc := by
  have hm : c.m < 2 ^ (8 * P.ob) := by rw [← pow256]; exact h.m
  have hfit : Spec.OffsetsFit (8 * P.lb) c.n := fitsCsr_room h
  obtain ⟨r, hr, rfl, rfl⟩ := C31_dimensions_violated (8 * P.ob) P.T hT' P.stor P.wk.wgt c hv hs hm nr nc
  obtain ⟨bs, hbs, hrc⟩ := readCoo_savedCsr_conv P T hT hT' hlb hob {} c h fn pad _ hr
  obtain ⟨es, h1, h2, h3, h4, h5⟩ := readCoo_savedCsr_is P T hT hT' hlb hob c h hv hs hl
  obtain ⟨r', h', hci⟩ := (h5 fn pad bs hbs).2 _ hrc
  cases h'
  have := matrixFromCoo_eq (Q := fun o i => o.nrows = r.nrows ∧ o.ncols = r.ncols)
    ((twoGraphs_rowsOf (lw := 8 * P.lb) (ow := 8 * P.ob) hT' hci h4 h3 hfit).mono (fun g hg => hg.1.2))
  obtain ⟨o, ho⟩ := matrixFromCoo_any (lw := 8 * P.lb) (ow := 8 * P.ob) hT' P.wk.wgt r
  obtain ⟨a, rfl, ha⟩ := this o ho
  exact ⟨a, ⟨_, hbs, _, hrc, ho⟩, ha.1, ha.2⟩

/-- C81: a saved DiGraph or Tensor is not loaded as a COO, a CSR or a Matrix; the constructor throws. -/
theorem C81_other_kinds (P : Params W) (lb ob pad : Nat) (wgt : Bool) {V : Type} (cw : Codec V) (fn : List Byte) (cfg : Cfg)
    (g : DiGraph V) (t : Tensor V) (bs : List Byte) (hbs : bs = Spec.digraphFile lb ob wgt cw g ∨ bs = Spec.tensorFile lb ob wgt cw t) :
    (∀ o, (readCoo P cfg ⟨bs, pad⟩ fn 0 .auto).Out o → o = .error .nyi) ∧
    (∀ o, (readCsr P ⟨bs, pad⟩ fn 0 .auto).Out o → o = .error .nyi) ∧
    (∀ o, (readMatrix P ⟨bs, pad⟩ fn).Out o → o = .error .nyi) := by
  have h45 := C45_saved lb ob pad wgt cw fn ⟨[], [], [], 0, 0, 0, 0⟩ ⟨[], [], [], 0, 0, 0, 0⟩ g t
  have ht : ∃ ft, usedType ⟨bs, pad⟩ fn 0 .auto = .ok ft ∧ (ft = .digraphBin ∨ ft = .tensorBin) := by
    unfold usedType
    rw [if_pos rfl]
    rcases hbs with rfl | rfl
    · exact ⟨_, h45.2.2.1, .inl rfl⟩
    · exact ⟨_, h45.2.2.2, .inr rfl⟩
  obtain ⟨ft, ht, hft⟩ := ht
  have hcoo : ∀ cfg o, (readCoo P cfg ⟨bs, pad⟩ fn 0 .auto).Out o → o = .error .nyi := by
    rintro cfg o ⟨o1, h1, h2⟩
    rw [ht] at h1
    cases h1
    dsimp only at h2
    rw [if_neg (by rcases hft with rfl | rfl <;> decide), if_neg (by rcases hft with rfl | rfl <;> decide)] at h2
    exact h2
  refine ⟨hcoo cfg, ?_, ?_⟩
  · rintro o ⟨o1, h1, h2⟩
    rw [ht] at h1
    cases h1
    dsimp only at h2
    rw [if_neg (by rcases hft with rfl | rfl <;> decide), if_neg (by rcases hft with rfl | rfl <;> decide),
      if_neg (by rcases hft with rfl | rfl <;> decide)] at h2
    exact h2
  · rintro o ⟨o1, h1, h2⟩
    cases hcoo _ _ h1
    exact h2

/-! ## The hypotheses are met -/

/-- 32 bit labels, 64 bit ordinals, 32 bit signed weights, three threads. -/
def intParams : Params Int where
  T := 3
  lb := 4
  ob := 8
  wk := wSint 32
  cw := codecInt 4 (by decide)
  stor := .shared

/-- A weighted edge list with a comment, a blank line and a fourth column. -/
def exCross : Mapping := ⟨str "# weights\n1 2 -5\n\n0 1 7 x\n1 2 30\n", 9⟩

theorem exCross_entries : Spec.entries Spec.entryS exCross.bytes = [(1, 2, -5), (0, 1, 7), (1, 2, 30)] := by decide

/-- `C81_text_file` applies to `exCross`: the Matrix loaded has two rows and three columns, and row 1 holds both entries. -/
example : (readMatrix intParams exCross (str "w.txt")).All (fun a => a.nrows = 2 ∧ a.ncols = 3 ∧
    (Spec.row a.csr 1).Perm [2, 2] ∧ (Spec.row a.csc 2).Perm [1, 1]) := by
  have h := C81_text_file intParams (by decide) (by decide) exCross (by decide) (str "w.txt") (by decide) (by decide) (by decide)
    (.sint 32) ⟨by decide, by decide⟩ [(1, 2, -5), (0, 1, 7), (1, 2, 30)] exCross_entries.symm (by decide) (by decide) (by decide) 3
    (by decide) (.inr (by decide))
  refine h.2.2.mono ?_
  rintro a ⟨h1, h2, h3, h4⟩
  exact ⟨h3, h4, h1.rows 1 (by decide), h2.rows 2 (by decide)⟩

/-- `C81_matrix_market` applies to `exMm`. -/
example : (readCsr intParams exMm (str "a.mtx") 0 .auto).All (fun r => r.1.n = 6 ∧ (Spec.row r.1 4).Perm [5] ∧
    ((Spec.row r.1 4).zip (Spec.rowWeights r.1 4)).Perm [(5, -8)]) := by
  have h := C81_matrix_market intParams (by decide) exMm (by decide) (str "a.mtx") ⟨str "a", rfl⟩ exMm_file (.sint 32)
    exMm_body [(1, 2, 7), (4, 5, -8), (2, 2, 9)] exMm_entries.symm (by decide)
    ⟨by decide, by decide, rfl, by decide, by decide, by decide⟩ 6 (by decide) (.inr (by decide))
  refine h.1.mono ?_
  rintro r h1
  exact ⟨h1.size, h1.rows 4 (by decide), h1.weights rfl 4 (by decide)⟩

/-- The saved objects of C37 and C38 meet the hypotheses of `C81_saved_coo` and `C81_saved_csr_*`. -/
example : Spec.FitsCsr binParams.lb binParams.ob binParams.wk.wgt binParams.cw binCsr ∧ Spec.ValidCsr binCsr binParams.wk.wgt ∧
    (binParams.wk.wgt = true → binParams.stor ≠ .vector) ∧ (∀ p ∈ Spec.pairs binCsr, p.2 < binCsr.n) ∧ 2 * binCsr.m < 2 ^ (8 * binParams.ob) ∧
    Spec.triples binCsr = [(0, 1, 255), (0, 1, 0), (2, 0, 9)] :=
  ⟨binCsr_fits, ⟨by decide, by decide, by decide, by decide, by decide, by decide⟩, by decide, by decide, by decide, by decide⟩

example : Holds binCoo intParams.wk.wgt [(0, 3, -7), (2, 0, 2147483647), (1, 1, 0)] ∧
    (∀ e ∈ [((0 : Nat), (3 : Nat), (-7 : Int)), (2, 0, 2147483647), (1, 1, 0)], e.1 < binCoo.n ∧ e.2.1 < binCoo.n) ∧
    Spec.OffsetsFit (8 * intParams.lb) binCoo.n :=
  ⟨⟨by decide, by decide, by decide, fun _ => by decide⟩, by decide, .inr (by decide)⟩

end Pigo
