import Verif.Props.Session
import Verif.Props.GraphFile2
import Verif.Spec.SessionLoad

/-!
# C101: programs that start from a text file

Edge lists with and without weights, Matrix Market files and `.graph` files, loaded into any class.
-/

namespace Pigo.Session

variable {W : Type}

/-- The weight types of programs: how a line is understood and which weights they can hold and write. -/
inductive Weights : {W : Type} → Types W → (List Byte → Option (Nat × Nat × W)) → (W → Prop) → Prop
  | none (E : Types Unit) (hwk : E.wk = wNone) (hwt : E.wt = wtNone) : Weights E Pigo.Spec.entry0 (fun _ => True)
  | unsigned (E : Types Nat) (ww : Nat) (hwk : E.wk = wUint ww) (hwt : E.wt = wtUint) (hcw : ∀ w, w < 2 ^ ww → E.cw.ok w) :
    Weights E Pigo.Spec.entryU (fun w => w < 2 ^ ww)
  | signed (E : Types Int) (ww : Nat) (hwk : E.wk = wSint ww) (hwt : E.wt = wtInt ww) (hcw : ∀ w : Int, w.natAbs < 2 ^ (ww - 1) → E.cw.ok w) :
    Weights E Pigo.Spec.entryS (fun w => w.natAbs < 2 ^ (ww - 1))
  | float {V : Type} (E : Types V) (ops : FpOps V) (txt : V → List Byte) (hwk : E.wk = wFp ops) (hwt : E.wt = wtFloat txt) :
    Weights E (Pigo.Spec.entryF (evalLit ops))
      (fun w => E.cw.ok w ∧ Word (txt w) ∧ (Pigo.Spec.parseLit (txt w)).map (evalLit ops) = some w)

variable {E : Types W} {entry : List Byte → Option (Nat × Nat × W)} {ok : W → Prop}

theorem Weights.format (h : Weights E entry ok) : ∃ wp, Format E.wk entry wp ∧ ∀ e : Nat × Nat × W, (E.wk.wgt = true → ok e.2.2) → wp e := by
  cases h with
  | none _ hwk _ => exact ⟨_, by rw [hwk]; exact .none, fun _ _ => trivial⟩
  | unsigned _ ww hwk _ _ => exact ⟨_, by rw [hwk]; exact .uint ww, fun e he => he (by rw [hwk]; rfl)⟩
  | signed _ ww hwk _ _ => exact ⟨_, by rw [hwk]; exact .sint ww, fun e he => he (by rw [hwk]; rfl)⟩
  | float _ ops _ hwk _ => exact ⟨_, by rw [hwk]; exact .float ops, fun _ _ => trivial⟩

theorem Weights.cw (h : Weights E entry ok) : (E.wk.wgt = true → ∀ w, ok w → E.cw.ok w) ∧ (E.wk.wgt = false → ∀ w, ok w) := by
  cases h with
  | none _ hwk _ => exact ⟨(fun g => by rw [hwk] at g; cases g), fun _ _ => trivial⟩
  | unsigned _ ww hwk _ hcw => exact ⟨fun _ => hcw, fun g => by rw [hwk] at g; cases g⟩
  | signed _ ww hwk _ hcw => exact ⟨fun _ => hcw, fun g => by rw [hwk] at g; cases g⟩
  | float _ ops _ hwk _ => exact ⟨fun _ _ hv => hv.1, fun g => by rw [hwk] at g; cases g⟩

variable [Inhabited W]

theorem Weights.computes (h : Weights E entry ok) {k k' : Kind} (p : Prog k k') (o : Obj W k) (s : Net W) (hi : Spec.Is E.wk.wgt k o s)
    (hr : Spec.Ready E ok p s) : Spec.Computes E p o s := by
  cases h with
  | none _ hwk hwt => exact C101_unweighted _ hwk hwt p o s (by rw [hwk] at hi; exact hi) hr
  | unsigned _ ww hwk hwt hcw => exact C101_unsigned _ ww hwk hwt hcw p o s (by rw [hwk] at hi; exact hi) hr
  | signed _ ww hwk hwt hcw => exact C101_signed _ ww hwk hwt hcw p o s (by rw [hwk] at hi; exact hi) hr
  | float _ ops txt hwk hwt => exact C101_float _ ops txt hwk hwt p o s (by rw [hwk] at hi; exact hi) hr

theorem Weights.types (h : Weights E entry ok) {k k' : Kind} {p : Prog k k'} {s : Net W} (hr : Spec.Ready E ok p s) : TypesOk E s.n ok :=
  ⟨hr.lb, hr.ob, hr.labels, h.cw.1, h.cw.2, hr.wlt⟩

omit [Inhabited W] in
theorem ready_m {k k' : Kind} {p : Prog k k'} {s : Net W} (hr : Spec.Ready E ok p s) : s.es.length < 2 ^ (8 * E.ob) := by
  have h1 := hr.ordinals
  have h2 := le_peak p s.es.length
  omega

/-- A program on a loaded object. -/
theorem from_load (h : Weights E entry ok) {k k' : Kind} (p : Prog k k') {s : Net W} (hr : Spec.Ready E ok p s) {l : R (Obj W k)}
    (hl : l.All (fun o => Spec.Is E.wk.wgt k o s)) (out : M (Obj W k')) (ho : (l >>= fun o => p.run E o).Out out) :
    ∃ o' s', out = .ok o' ∧ Spec.Does E.wlt p s s' ∧ Spec.Is E.wk.wgt k' o' s' := by
  obtain ⟨o', rfl, s', h1, h2⟩ := R.All.bind hl (P := fun o => Spec.Is E.wk.wgt k o s)
    (Q := fun o' => ∃ s', Spec.Does E.wlt p s s' ∧ Spec.Is E.wk.wgt k' o' s') (fun o hi => by
      intro out ho
      obtain ⟨o', s', rfl, h1, h2⟩ := h.computes p o s hi hr out ho
      exact ⟨o', rfl, s', h1, h2⟩) out ho
  exact ⟨o', s', rfl, h1, h2⟩

omit [Inhabited W] in
theorem entryEdge_view (wgt : Bool) (es : List (Nat × Nat × W)) : es.map (Spec.entryEdge wgt) = es.map (view wgt) := by
  apply List.map_congr_left
  intro e _
  cases wgt <;> rfl

omit [Inhabited W] in
theorem entry_ok {es : List (Nat × Nat × W)} {wgt : Bool} (h : ∀ e ∈ es.map (Spec.entryEdge wgt), ∀ w, e.2.2 = some w → ok w) :
    ∀ e ∈ es, wgt = true → ok e.2.2 := by
  intro e he hw
  exact h _ (List.mem_map_of_mem he) _ (by simp [Spec.entryEdge, hw])

/-- **C101** from an edge list on, with or without weights: an object of any class is built from a text file of entries, then any
program is run on it.  All that happens is what the operations do to the graph of the entries. -/
theorem C101_from_text (h : Weights E entry ok) (T : Nat) (hT : 0 < T) (μ : Mapping) (hpad : 0 < μ.pad) (fn : List Byte)
    (hmagic : ¬ str "PIGO" <+: μ.bytes) (hfn : Spec.PlainName fn) (hok : Pigo.Spec.FileOk entry μ.bytes) {k k' : Kind} (p : Prog k k')
    (hr : Spec.Ready E ok p (Spec.entriesNet E.wk.wgt (Pigo.Spec.entries entry μ.bytes)))
    (out : M (Obj W k')) (ho : (load (E.params T) k μ fn >>= fun o => p.run E o).Out out) :
    ∃ o' s', out = .ok o' ∧ Spec.Does E.wlt p (Spec.entriesNet E.wk.wgt (Pigo.Spec.entries entry μ.bytes)) s' ∧ Spec.Is E.wk.wgt k' o' s' := by
  obtain ⟨wp, hf, hwp⟩ := h.format
  have hm := ready_m hr
  have hlab := hr.labels
  refine from_load h p hr ?_ out ho
  obtain ⟨ht, hc⟩ := readCoo_text (E.params T) hT hr.lb.1 μ hpad fn hmagic hfn.1 hfn.2 hf hok
    (fun e he => hwp e (entry_ok hr.weights e he))
    (by
      intro e he
      have := le_maxLabel (List.mem_map_of_mem (f := fun e : Nat × Nat × W => (e.1, e.2.1)) he)
      simp only [Spec.entriesNet] at hlab
      show e.1 + 1 < 2 ^ (8 * E.lb) ∧ e.2.1 + 1 < 2 ^ (8 * E.lb)
      omega)
    (by
      rw [Spec.entriesNet, List.length_map] at hm
      exact hm)
  refine load_is (h.types hr) hT ⟨Nat.le_refl _, hr.ends, hr.weights⟩ hm ht (.inr (.inl rfl)) (hc.mono (fun c hc => ?_)) k
  refine cooIs_of hc.holds ?_ (by rw [Spec.entriesNet, entryEdge_view])
  rw [hc.n, dims_ends (wgt := E.wk.wgt), Spec.entriesNet, List.map_map]
  rfl

/-- **C101** from a Matrix Market file on. -/
theorem C101_from_matrix_market (h : Weights E entry ok) (T : Nat) (hT : 0 < T) (μ : Mapping) (hpad : 0 < μ.pad) (fn : List Byte)
    (hfn : str ".mtx" <:+ fn) {nr nc N : Nat} {body : List (List Byte)} (hfile : Pigo.Spec.MmFile μ.bytes nr nc N body)
    (hok : Pigo.Spec.BodyOk entry body) (hc : MmConsistent (8 * E.lb) (8 * E.ob) nr nc N (Pigo.Spec.entriesOf entry body)) {k k' : Kind} (p : Prog k k')
    (hr : Spec.Ready E ok p (Spec.mmNet E.wk.wgt nr nc (Pigo.Spec.entriesOf entry body)))
    (out : M (Obj W k')) (ho : (load (E.params T) k μ fn >>= fun o => p.run E o).Out out) :
    ∃ o' s', out = .ok o' ∧ Spec.Does E.wlt p (Spec.mmNet E.wk.wgt nr nc (Pigo.Spec.entriesOf entry body)) s' ∧ Spec.Is E.wk.wgt k' o' s' := by
  obtain ⟨wp, hf, hwp⟩ := h.format
  refine from_load h p hr ?_ out ho
  obtain ⟨ht, hcoo⟩ := readCoo_mm (E.params T) hT μ hpad fn hfn hfile hf hok (fun e he => hwp e (entry_ok hr.weights e he)) hc
  refine load_is (h.types hr) hT ⟨Nat.le_refl _, hr.ends, hr.weights⟩ (ready_m hr) ht (.inl rfl) (hcoo.mono (fun c hc => ?_)) k
  exact cooIs_of hc.holds hc.n (by rw [Spec.mmNet, entryEdge_view])

/-! ## `.graph` files -/

theorem rows_is {c : Csr Unit} {rows : List (List Nat)} (hv : Pigo.Spec.ValidCsr c false) (hr : ∀ i r, rows[i]? = some r → Pigo.Spec.row c i = r)
    (hn : c.n = rows.length) : Spec.CsrIs false c (Spec.rowsNet rows) := by
  refine ⟨hv, hn, ?_⟩
  have : Spec.csrEdges false c = (Spec.rowsNet rows).es := by
    rw [Spec.csrEdges, Spec.rowsNet, hn]
    apply flatMap_congr'
    intro v hv
    have hlt := List.mem_range.mp hv
    rw [hr v (rows.getD v []) (by rw [List.getD_eq_getElem?_getD, List.getElem?_eq_getElem hlt]; rfl), if_neg (by decide)]
    generalize rows.getD v [] = l
    induction l with
    | nil => rfl
    | cons u l ih => simpa using ih
  rw [this]

/-- **C101** from a `.graph` file on: a file of zero-based adjacency lists whose header agrees with them, loaded into any class. -/
theorem C101_from_graph_file (E : Types Unit) (hwk : E.wk = wNone) (hwt : E.wt = wtNone) (T : Nat) (hT : 0 < T) (μ : Mapping) (hpad : 0 < μ.pad)
    (fn : List Byte) (hmagic : ¬ str "PIGO" <+: μ.bytes) (hfn : str ".graph" <:+ fn) {n m : Nat} {rows : List (List Nat)} {body : List (List Byte)}
    {tail : List Byte} (hfile : GraphOk μ.bytes (8 * E.lb) (8 * E.ob) n m rows body tail) (hh : HeaderOk n m rows)
    (hz : Pigo.Spec.ZeroBased body tail) (hfirst : ∀ r, rows.head? = some r → r ≠ []) {k k' : Kind} (p : Prog k k')
    (hr : Spec.Ready E (fun _ => True) p (Spec.rowsNet rows))
    (out : M (Obj Unit k')) (ho : (load (E.params T) k μ fn >>= fun o => p.run E o).Out out) :
    ∃ o' s', out = .ok o' ∧ Spec.Does E.wlt p (Spec.rowsNet rows) s' ∧ Spec.Is false k' o' s' := by
  have hW : Weights E Pigo.Spec.entry0 (fun _ => True) := .none E hwk hwt
  have hw : E.wk.wgt = false := by rw [hwk]; rfl
  have ht : usedType μ fn 0 .auto = .ok .graph := by rw [usedType, if_pos rfl, C58_detected μ fn hfn hmagic]
  have hs : Within (Spec.rowsNet rows).n (fun _ => True) (Spec.rowsNet rows) := ⟨Nat.le_refl _, hr.ends, hr.weights⟩
  have hE := hW.types hr
  have hcsr : ∀ ft, usedType μ fn 0 ft = .ok .graph → (readCsr (E.params T) μ fn 0 ft).All (fun r => Spec.CsrIs false r.1 (Spec.rowsNet rows)) := by
    intro ft ht
    unfold readCsr
    refine R.All.step ht ?_
    rw [if_neg (by decide), if_neg (by decide), if_pos rfl, if_neg (by
      show ¬ E.wk.wgt = true
      rw [hw]; decide)]
    refine R.All.bind (P := fun c => Spec.CsrIs false c (Spec.rowsNet rows)) ?_ (fun c hc => R.All.pure hc)
    intro out ho
    obtain ⟨c, rfl, h1, h2, h3, _⟩ := C58_zero_based μ hpad (8 * E.lb) (8 * E.ob) T n m hT rows body tail hfile hh hz hfirst out ho
    exact ⟨c, rfl, rows_is h1 h2 (by rw [h3, hh.count])⟩
  have hcoo : (readCoo (E.params T) {} μ fn 0 .auto).All (fun c => Spec.CooIs E.wk.wgt c (Spec.rowsNet rows)) := by
    unfold readCoo
    refine R.All.step ht ?_
    rw [if_neg (by decide), if_pos (.inr rfl)]
    refine R.All.bind (P := fun r : Csr Unit × Nat => Spec.CsrIs false r.1 (Spec.rowsNet rows)) ?_ (fun r hc => ?_)
    · exact hcsr .graph (by rw [usedType, if_neg (by decide)])
    · exact toCoo_is (ow := 8 * E.ob) (T := T) (stor := E.stor) (c := r.1) (s := Spec.rowsNet rows) (wgt := E.wk.wgt) Flags.none
        (by rw [hw]; exact hc) (fun g => by rw [hw] at g; cases g) (by show 1 * _ < _; rw [Nat.one_mul]; exact ready_m hr)
  obtain ⟨o', s', h1, h2, h3⟩ := from_load hW p hr (l := load (E.params T) k μ fn) (by
    cases k with
    | coo => exact hcoo
    | csr => exact R.All.bind (hcsr .auto ht) (fun r hc => R.All.pure (by rw [hw]; exact hc))
    | graph => exact load_graph hE hT hs (ready_m hr) ht (by decide) hcoo
    | matrix => exact load_matrix hE hT hs (ready_m hr) hcoo) out ho
  exact ⟨o', s', h1, h2, by rw [hw] at h3; exact h3⟩

/-! ## Instances -/

theorem exSigned : Weights exTypes Pigo.Spec.entryS (fun w : Int => w.natAbs < 2 ^ (64 - 1)) :=
  .signed exTypes 64 rfl rfl (fun w h => by
    simp only [exTypes, codecInt]
    constructor <;> omega)

/-- A weighted edge list with a comment, a blank line and a repeated edge. -/
def exWt : Mapping := ⟨str "# 3 3 3\n1 2 -7\n\n4 0 8 % 5 5 5\n4 0 8\n", 5⟩

theorem exWt_entries : Pigo.Spec.entries Pigo.Spec.entryS exWt.bytes = [(1, 2, -7), (4, 0, 8), (4, 0, 8)] := by decide

theorem exWt_ok : Pigo.Spec.FileOk Pigo.Spec.entryS exWt.bytes := by
  refine ⟨?_, ?_⟩ <;> decide

/-- A DiGraph from a weighted file, its reverse graph as a COO with both directions of every edge. -/
example (out : M (Coo Int)) (ho : (load (exTypes.params 3) .graph exWt (str "g.el") >>= fun o =>
      (Prog.step 2 .inGraph (.step 4 (.toCoo .symmetric) .done)).run exTypes o).Out out) :
    ∃ c, out = .ok c ∧ c.n = 5 ∧ (Spec.cooEdges true c).Perm [(2, 1, some (-7)), (1, 2, some (-7)), (0, 4, some 8), (4, 0, some 8),
      (0, 4, some 8), (4, 0, some 8)] := by
  have he : Spec.entriesNet true (Pigo.Spec.entries Pigo.Spec.entryS exWt.bytes) =
      ⟨5, [(1, 2, some (-7)), (4, 0, some 8), (4, 0, some 8)]⟩ := by
    rw [exWt_entries]; rfl
  obtain ⟨c, s', rfl, hd, hi⟩ := C101_from_text exSigned 3 (by decide) exWt (by decide) (str "g.el") (by decide) ⟨by decide, by decide⟩ exWt_ok
    (.step 2 .inGraph (.step 4 (.toCoo .symmetric) .done)) (by
      show Spec.Ready _ _ _ (Spec.entriesNet true _)
      rw [he]
      exact ⟨by decide, by decide, intLt_strictWeak, by decide, by decide, by decide, ⟨by decide, by decide, trivial⟩, by
        intro e he w hw
        simp only [List.mem_cons, List.not_mem_nil, or_false] at he
        rcases he with rfl | rfl | rfl <;> (cases hw; decide), fun h => h.elim, fun _ _ => by decide⟩) out ho
  change Spec.Does _ _ (Spec.entriesNet true _) _ at hd
  rw [he] at hd
  obtain ⟨s1, h1, s2, h2, rfl⟩ := hd
  refine ⟨c, rfl, (hi.n.trans h2.1).trans h1.1, (hi.edges.trans h2.2).trans ?_⟩
  exact ((h1.2.append (h1.2.map _))).trans (by decide)

/-- A Matrix from the Matrix Market file `exMm`, and its CSC. -/
example (out : M (Csr Int)) (ho : (load (exTypes.params 3) .matrix exMm (str "a.mtx") >>= fun o =>
      (Prog.step 2 .csc .done).run exTypes o).Out out) :
    ∃ c, out = .ok c ∧ c.n = 6 ∧ (Spec.csrEdges true c).Perm [(2, 1, some 7), (5, 4, some (-8)), (2, 2, some 9)] := by
  have he : Spec.mmNet true 4 5 (Pigo.Spec.entriesOf Pigo.Spec.entryS exMmBody) = ⟨6, [(1, 2, some 7), (4, 5, some (-8)), (2, 2, some 9)]⟩ := by
    rw [exMm_entries]; rfl
  have hc : MmConsistent (8 * exTypes.lb) (8 * exTypes.ob) 4 5 3 (Pigo.Spec.entriesOf Pigo.Spec.entryS exMmBody) := by
    rw [exMm_entries]; exact ⟨by decide, by decide, rfl, by decide, by decide, by decide⟩
  obtain ⟨c, s', rfl, hd, hi⟩ := C101_from_matrix_market exSigned 3 (by decide) exMm (by decide) (str "a.mtx") (by decide) exMm_file exMm_body hc
    (.step 2 .csc .done) (by
      show Spec.Ready _ _ _ (Spec.mmNet true 4 5 _)
      rw [he]
      exact ⟨by decide, by decide, intLt_strictWeak, by decide, by decide, by decide, ⟨by decide, trivial⟩, by
        intro e he w hw
        simp only [List.mem_cons, List.not_mem_nil, or_false] at he
        rcases he with rfl | rfl | rfl <;> (cases hw; decide), fun h => h.elim, fun h => h.elim⟩) out ho
  change Spec.Does _ _ (Spec.mmNet true 4 5 _) _ at hd
  rw [he] at hd
  obtain ⟨s1, h1, rfl⟩ := hd
  exact ⟨c, rfl, hi.n.trans h1.1, hi.edges.trans h1.2⟩

/-- Without weights, 64-bit ordinals. -/
def exTypes8 : Types Unit := { exTypes0 with ob := 8 }

/-- A DiGraph from the `.graph` file `exGraph0`, saved as binary and loaded again. -/
example (out : M (DiGraph Unit)) (ho : (load (exTypes8.params 3) .graph exGraph0 (str "dir/web.graph") >>= fun o =>
      (Prog.step 2 (.saveGraph (str "b.bin") 7) .done).run exTypes8 o).Out out) :
    ∃ g, out = .ok g ∧ g.outG.n = 4 ∧ (Spec.csrEdges false g.outG).Perm [(0, 1, none), (0, 2, none), (1, 0, none), (1, 3, none), (3, 0, none),
      (3, 1, none)] := by
  have he : Spec.rowsNet exRows0 = ⟨4, [(0, 1, none), (0, 2, none), (1, 0, none), (1, 3, none), (3, 0, none), (3, 1, none)]⟩ := rfl
  obtain ⟨c, s', rfl, hd, hi⟩ := C101_from_graph_file exTypes8 rfl rfl 3 (by decide) exGraph0 (by decide) (str "dir/web.graph") (by decide)
    (by decide) exGraph0_ok ⟨by decide, by decide⟩ exGraph0_zero (by decide) (.step 2 (.saveGraph (str "b.bin") 7) .done) (by
      rw [he]
      exact ⟨by decide, by decide, false_strictWeak, by decide, by decide, by decide, ⟨by decide, trivial⟩, fun _ _ _ _ => trivial,
        fun h => h.elim, fun h => h.elim⟩) out ho
  rw [he] at hd
  obtain ⟨s1, h1, rfl⟩ := hd
  exact ⟨c, rfl, hi.1.n.trans h1.1, hi.1.edges.trans h1.2⟩

end Pigo.Session
