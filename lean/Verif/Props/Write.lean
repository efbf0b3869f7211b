import Verif.Lemmas.Words

/-!
# Properties of the text writers: C46, C47, C48, C50
-/

namespace Pigo

variable {W : Type}

/-- The ways of writing weights: `txt w` is what is written for `w`, if `ok w`. -/
inductive Printer : {W : Type} → WText W → (W → List Byte) → (W → Prop) → Prop
  | none : Printer wtNone (fun _ => []) (fun _ => True)
  | uint : Printer wtUint Spec.showNat (fun _ => True)
  | sint (w : Nat) : Printer (wtInt w) Spec.showInt (fun z => z.natAbs < 2 ^ (w - 1))
  | float {V : Type} (txt : V → List Byte) : Printer (wtFloat txt) txt (fun _ => True)

theorem Printer.write {wt : WText W} {txt : W → List Byte} {ok : W → Prop} (h : Printer wt txt ok) {w : W} (hw : ok w) (hg : wt.wgt = true) :
    wt.Ok (txt w) w := by
  cases h with
  | none => cases hg
  | uint => exact wtUint_ok w
  | sint w => exact wtInt_ok hw
  | float txt => exact wtFloat_ok txt w

theorem cooLine_ne (wgt : Bool) (txt : W → List Byte) (e : Nat × Nat × W) : Spec.cooLine wgt txt e ≠ [] := by
  simp [Spec.cooLine, str_nl]

theorem snoc_induction {α : Type} {p : List α → Prop} (h0 : p []) (h1 : ∀ l a, p l → p (l ++ [a])) (l : List α) : p l := by
  have : ∀ r : List α, p r.reverse := by
    intro r
    induction r with
    | nil => exact h0
    | cons a r ih => rw [List.reverse_cons]; exact h1 _ _ ih
  simpa using this l.reverse

theorem flatMap_range_get {α β : Type} (es : List α) (g : α → List β) (f : Nat → List β) (h : ∀ i a, es[i]? = some a → f i = g a) :
    (List.range es.length).flatMap f = es.flatMap g := by
  induction es using snoc_induction with
  | h0 => rfl
  | h1 es a ih =>
    rw [List.length_append, List.length_singleton, List.range_succ, List.flatMap_append, List.flatMap_append, ih]
    · rw [List.flatMap_singleton, List.flatMap_singleton, h es.length a (by simp)]
    · intro i b hb
      exact h i b (by rw [List.getElem?_append_left (List.getElem?_eq_some_iff.mp hb).1]; exact hb)

/-- Line `i` of a list of entries. -/
def lineAt {α : Type} (line : α → List Byte) (es : List α) (i : Nat) : List Byte := (es[i]?.map line).getD []

theorem lineAt_some {α : Type} {line : α → List Byte} {es : List α} {i : Nat} {a : α} (h : es[i]? = some a) : lineAt line es i = line a := by
  simp [lineAt, h]

/-- Text written by two passes with the same assignment of entries to threads. -/
theorem cooWrite_its {wt : WText W} {txt : W → List Byte} {ok : W → Prop} (hp : Printer wt txt ok) {c : Coo W} {es : List (Nat × Nat × W)}
    (h : Holds c wt.wgt es) (hok : ∀ e ∈ es, ok e.2.2) (hne : es ≠ []) {its : List (List Nat)} (hits : its.flatten.Perm (List.range c.m)) :
    (twoPass (cooLineSize wt c) (cooLineActs wt c) its its).All (fun bs => bs = its.flatten.flatMap (lineAt (Spec.cooLine wt.wgt txt) es)) := by
  have hlt : ∀ e ∈ its.flatten, e < es.length := by
    intro e he
    rw [hits.mem_iff, h.m, List.mem_range] at he
    exact he
  refine twoPass_all ?_ ?_
  · intro e he
    have hg := List.getElem?_eq_getElem (hlt e he)
    rw [lineAt_some hg]
    exact cooLine_ok h (fun hg p hpm => hp.write (hok p hpm) hg) hg
  · have h0 : 0 ∈ its.flatten := by
      rw [hits.mem_iff, h.m, List.mem_range]
      exact List.length_pos_iff.mpr hne
    intro hn
    have := List.flatMap_eq_nil_iff.mp hn 0 h0
    rw [lineAt_some (List.getElem?_eq_getElem (hlt 0 h0))] at this
    exact cooLine_ne _ _ _ this

/-- C46: `COO::write` writes, for every number of threads and every interleaving, exactly the lines of the entries in
order. -/
theorem C46_coo_write (T : Nat) (wt : WText W) (txt : W → List Byte) (ok : W → Prop) (hp : Printer wt txt ok) (c : Coo W)
    (es : List (Nat × Nat × W)) (h : Holds c wt.wgt es) (hok : ∀ e ∈ es, ok e.2.2) (hne : es ≠ []) :
    (writeCoo T wt c).All (fun bs => bs = es.flatMap (fun e => Spec.cooLine wt.wgt txt e)) := by
  refine R.All.bind (R.All.choose (fun its hits => hits)) (fun its hits => ?_)
  refine (cooWrite_its hp h hok hne (hits.chunks ▸ List.Perm.refl _)).mono (fun bs hbs => ?_)
  rw [hbs, hits.chunks, h.m]
  exact flatMap_range_get es _ _ (fun i a ha => lineAt_some ha)

/-- C46: with any other assignment of the entries to the threads, if it is the same in both loops, the same lines are
written in the order of the assignment. -/
theorem C46_any_assignment (wt : WText W) (txt : W → List Byte) (ok : W → Prop) (hp : Printer wt txt ok) (c : Coo W)
    (es : List (Nat × Nat × W)) (h : Holds c wt.wgt es) (hok : ∀ e ∈ es, ok e.2.2) (hne : es ≠ []) (T : Nat) (its : List (List Nat))
    (hits : OmpDyn c.m T its) :
    ∃ es' : List (Nat × Nat × W), es'.Perm es ∧ (twoPass (cooLineSize wt c) (cooLineActs wt c) its its).All (fun bs => bs = es'.flatMap (fun e => Spec.cooLine wt.wgt txt e)) := by
  refine ⟨its.flatten.filterMap (fun i => es[i]?), ?_, ?_⟩
  · have hp' := hits.all.filterMap (fun i => es[i]?)
    refine hp'.trans (List.Perm.of_eq ?_)
    rw [h.m]
    clear hp' hits h hok hne
    induction es using snoc_induction with
    | h0 => rfl
    | h1 es a ih =>
      rw [List.length_append, List.length_singleton, List.range_succ, List.filterMap_append]
      rw [filterMap_congr'' (g := fun i => es[i]?) (by
        intro i hi
        rw [List.mem_range] at hi
        exact List.getElem?_append_left hi), ih]
      simp
  · refine (cooWrite_its hp h hok hne hits.all).mono (fun bs hbs => ?_)
    rw [hbs]
    have hlt : ∀ e ∈ its.flatten, e < es.length := by
      intro e he
      rw [hits.all.mem_iff, h.m, List.mem_range] at he
      exact he
    clear hbs hits hp hok h
    generalize its.flatten = l at hlt
    induction l with
    | nil => rfl
    | cons i l ih =>
      have hg := List.getElem?_eq_getElem (hlt i (List.mem_cons_self ..))
      rw [List.flatMap_cons, ih (fun e he => hlt e (List.mem_cons_of_mem _ he)), List.filterMap_cons, hg, lineAt_some hg, List.flatMap_cons]

theorem OmpStatic.one (k T : Nat) (hT : 0 < T) : OmpStatic k T (List.range k :: List.replicate (T - 1) []) where
  threads := by simp; omega
  chunks := by simp

theorem twoPass_any (size : Nat → M Nat) (ascii : Nat → Nat → M (List (Nat × Byte) × Nat)) (its its' : List (List Nat)) : (twoPass size ascii its its').Any :=
  R.Any.bind (R.Any.lift _) (fun _ => R.Any.bind (R.Any.lift _) (fun _ => R.Any.bind (R.Any.lift _) (fun _ => R.Any.par ..)))

/-- `write` has executions for every number of threads. -/
theorem C46_write_runs (T : Nat) (hT : 0 < T) (ob : Nat) (wt : WText W) (c : Coo W) (t : Tensor W) : (writeCoo T wt c).Any ∧ (writeTensor T ob wt t).Any :=
  ⟨R.Any.bind (R.Any.choose (OmpStatic.one _ _ hT)) (fun _ => twoPass_any ..),
    R.Any.bind (R.Any.choose (OmpStatic.one _ _ hT)) (fun _ => twoPass_any ..)⟩

/-- A COO with a negative weight, written by two threads with chunks of two and one entries. -/
def wrCoo : Coo Int := { x := [0, 12, 7], y := [5, 0, 100], w := [-7, 0, 31], n := 101, m := 3, nrows := 13, ncols := 101 }

example : Holds wrCoo true [(0, 5, -7), (12, 0, 0), (7, 100, 31)] ∧ (∀ e ∈ [(0, 5, -7), (12, 0, 0), ((7, 100, 31) : Nat × Nat × Int)], e.2.2.natAbs < 2 ^ (8 - 1)) ∧
    OmpStatic wrCoo.m 2 [[0, 1], [2]] :=
  ⟨⟨rfl, rfl, rfl, fun _ => rfl⟩, by decide, ⟨rfl, by decide⟩⟩

/-- What is written for it. -/
example : ([(0, 5, -7), (12, 0, 0), (7, 100, 31)] : List (Nat × Nat × Int)).flatMap (fun e => Spec.cooLine true Spec.showInt e) = str "0 5 -7\n12 0 0\n7 100 31\n" := by
  decide

/-- The assignments of the two loops have to agree (OpenMP promises it only for static schedules): here is a COO, two
assignments and an execution leaving a file that is not made of the lines. -/
theorem C46_needs_same_assignment : ∃ (c : Coo Unit) (es : List (Nat × Nat × Unit)) (its its' : List (List Nat)) (bs : List Byte),
    Holds c false es ∧ OmpFor c.m 2 its ∧ OmpFor c.m 2 its' ∧
    (twoPass (cooLineSize wtNone c) (cooLineActs wtNone c) its its').Out (.ok bs) ∧
    bs = str "10 11 1\n" ++ [0, 1] ∧ ∀ es' : List (Nat × Nat × Unit), es'.Perm es → bs ≠ es'.flatMap (fun e => Spec.cooLine false (fun _ => []) e) := by
  refine ⟨{ x := [1, 10], y := [1, 10], w := [], n := 11, m := 2, nrows := 11, ncols := 11 }, [(1, 1, ()), (10, 10, ())], [[0], [1]], [[1], [0]], _,
    ⟨rfl, rfl, rfl, by simp⟩, ⟨rfl, by decide, by decide⟩, ⟨rfl, by decide, by decide⟩, ?_, rfl, ?_⟩
  · exact ⟨_, rfl, _, rfl, _, rfl, _, interleave_flatten _, by decide⟩
  · intro es' hp
    have hl := hp.length_eq
    match es', hl with
    | [a, b], _ =>
      have hm : ∀ x ∈ [a, b], x = (1, 1, ()) ∨ x = (10, 10, ()) := by
        intro x hx
        have := hp.mem_iff.mp hx
        simpa using this
      rcases hm a (by simp) with rfl | rfl <;> rcases hm b (by simp) with rfl | rfl <;> decide

/-! ## C47 -/

theorem stored_plain_ne (en : Nat × Nat × W) : storedC {} en ≠ [] := by
  obtain ⟨x, y, w⟩ := en
  simp [storedC, Spec.stored]

/-- Loading the text of a list of entries. -/
theorem load_text {wk : WKind W} {entry : List Byte → Option (Nat × Nat × W)} {wp : Nat × Nat × W → Prop} {lw ow : Nat} (hf : FormatOk lw wk entry wp)
    {txt : W → List Byte} {es : List (Nat × Nat × W)} (hword : ∀ e ∈ es, wk.wgt = true → Word (txt e.2.2))
    (he : ∀ e ∈ es, entry (unwords (cooWords wk.wgt txt e)) = some e) (hwp : ∀ e ∈ es, wp e)
    (hlab : ∀ e ∈ es, e.1 < 2 ^ lw ∧ e.2.1 < 2 ^ lw) (hm : es.length < 2 ^ ow) {T pad : Nat} (hT : 0 < T) (hpad : 0 < pad) {out : M (Coo W)}
    (hrun : LoadEdgeList ⟨es.flatMap (fun e => Spec.cooLine wk.wgt txt e), pad⟩ lw ow {} wk T out) :
    ∃ c, out = .ok c ∧ Holds c wk.wgt es := by
  obtain ⟨h1, h2⟩ := cooText_entries hword he
  have h2' : Spec.entries entry (es.flatMap (fun e => Spec.cooLine wk.wgt txt e)) = es := h2
  have := load_any (μ := ⟨es.flatMap (fun e => Spec.cooLine wk.wgt txt e), pad⟩) hpad hf h1 (by simp only; rw [h2']; exact hwp)
    (by simp only; rw [h2']; exact hlab) {} hT (.inr (fun en _ => stored_plain_ne en)) (by simp only; rw [h2', storedAll_plain]; exact hm) hrun
  simp only [h2'] at this
  refine ⟨_, this, ?_⟩
  have hh := cooOf_holds lw {} wk.wgt es
  rwa [storedAll_plain] at hh

/-- C47: an unweighted COO written with `COO::write` and read back as an edge list gives the same entries, with any
numbers of threads and all interleavings (`0 < pad`: the size is no multiple of the page size, see C19). -/
theorem C47_unweighted (T T' : Nat) (hT' : 0 < T') (lw ow pad : Nat) (hpad : 0 < pad) (c : Coo Unit) (es : List (Nat × Nat × Unit))
    (h : Holds c false es) (hne : es ≠ []) (hlab : ∀ e ∈ es, e.1 < 2 ^ lw ∧ e.2.1 < 2 ^ lw) (hm : es.length < 2 ^ ow) :
    (writeCoo T wtNone c).All (fun bs => ∀ out, LoadEdgeList ⟨bs, pad⟩ lw ow {} wNone T' out → ∃ c', out = .ok c' ∧ Holds c' false es) := by
  refine (C46_coo_write T wtNone _ _ .none c es h (fun _ _ => trivial) hne).mono (fun bs hbs => ?_)
  rw [hbs]
  intro out hrun
  exact load_text (wk := wNone) (format_none lw) (fun e _ hg => absurd hg (by simp [wNone])) (fun e _ => entry0_words e _) (fun _ _ => trivial) hlab hm hT' hpad hrun

/-- C47, unsigned weights of `ww` bits. -/
theorem C47_unsigned (T T' : Nat) (hT' : 0 < T') (lw ow ww pad : Nat) (hpad : 0 < pad) (c : Coo Nat) (es : List (Nat × Nat × Nat))
    (h : Holds c true es) (hne : es ≠ []) (hlab : ∀ e ∈ es, e.1 < 2 ^ lw ∧ e.2.1 < 2 ^ lw) (hw : ∀ e ∈ es, e.2.2 < 2 ^ ww) (hm : es.length < 2 ^ ow) :
    (writeCoo T wtUint c).All (fun bs => ∀ out, LoadEdgeList ⟨bs, pad⟩ lw ow {} (wUint ww) T' out → ∃ c', out = .ok c' ∧ Holds c' true es) := by
  refine (C46_coo_write T wtUint _ _ .uint c es h (fun _ _ => trivial) hne).mono (fun bs hbs => ?_)
  rw [hbs]
  intro out hrun
  exact load_text (wk := wUint ww) (format_uint lw ww) (fun e _ _ => showNat_word _) (fun e _ => entryU_words e) hw hlab hm hT' hpad hrun

/-- C47, signed weights of `ww` bits (the smallest value excluded, see C02). -/
theorem C47_signed (T T' : Nat) (hT' : 0 < T') (lw ow ww pad : Nat) (hpad : 0 < pad) (c : Coo Int) (es : List (Nat × Nat × Int))
    (h : Holds c true es) (hne : es ≠ []) (hlab : ∀ e ∈ es, e.1 < 2 ^ lw ∧ e.2.1 < 2 ^ lw) (hw : ∀ e ∈ es, e.2.2.natAbs < 2 ^ (ww - 1))
    (hm : es.length < 2 ^ ow) :
    (writeCoo T (wtInt ww) c).All (fun bs => ∀ out, LoadEdgeList ⟨bs, pad⟩ lw ow {} (wSint ww) T' out → ∃ c', out = .ok c' ∧ Holds c' true es) := by
  refine (C46_coo_write T (wtInt ww) _ _ (.sint ww) c es h hw hne).mono (fun bs hbs => ?_)
  rw [hbs]
  intro out hrun
  exact load_text (wk := wSint ww) (format_sint lw ww) (fun e _ _ => showInt_word _)
    (fun e _ => entryW_words e (showInt_word _) (parseSigned_showInt _)) hw hlab hm hT' hpad hrun

/-- C47, floating point weights: if the text written for each weight is a number literal whose value (in the reader's
arithmetic) is the weight, the weights are read back. -/
theorem C47_float {V : Type} (ops : FpOps V) (txt : V → List Byte) (T T' : Nat) (hT' : 0 < T') (lw ow pad : Nat) (hpad : 0 < pad) (c : Coo V)
    (es : List (Nat × Nat × V)) (h : Holds c true es) (hne : es ≠ []) (hlab : ∀ e ∈ es, e.1 < 2 ^ lw ∧ e.2.1 < 2 ^ lw)
    (hw : ∀ e ∈ es, Word (txt e.2.2) ∧ (Spec.parseLit (txt e.2.2)).map (evalLit ops) = some e.2.2) (hm : es.length < 2 ^ ow) :
    (writeCoo T (wtFloat txt) c).All (fun bs => ∀ out, LoadEdgeList ⟨bs, pad⟩ lw ow {} (wFp ops) T' out → ∃ c', out = .ok c' ∧ Holds c' true es) := by
  refine (C46_coo_write T (wtFloat txt) _ _ (.float txt) c es h (fun _ _ => trivial) hne).mono (fun bs hbs => ?_)
  rw [hbs]
  intro out hrun
  exact load_text (wk := wFp ops) (format_fp lw ops) (fun e he _ => (hw e he).1)
    (fun e he => entryW_words e (hw e he).1 (hw e he).2) (fun _ _ => trivial) hlab hm hT' hpad hrun

example : Holds wrCoo true [(0, 5, -7), (12, 0, 0), (7, 100, 31)] ∧
    (∀ e ∈ [(0, 5, -7), (12, 0, 0), ((7, 100, 31) : Nat × Nat × Int)], e.1 < 2 ^ 7 ∧ e.2.1 < 2 ^ 7 ∧ e.2.2.natAbs < 2 ^ (8 - 1)) :=
  ⟨⟨rfl, rfl, rfl, fun _ => rfl⟩, by decide⟩

/-! ## C48 -/

theorem tensorLine_ne (wgt : Bool) (txt : W → List Byte) (e : List Nat × W) : Spec.tensorLine wgt txt e ≠ [] := by
  simp [Spec.tensorLine, str_nl]

/-- C48: `Tensor::write` writes exactly the lines of the entries in order. -/
theorem C48_tensor_write (T ob : Nat) (wt : WText W) (txt : W → List Byte) (ok : W → Prop) (hp : Printer wt txt ok) (t : Tensor W)
    (es : List (List Nat × W)) (h : HoldsT t wt.wgt es) (ho : 0 < t.order) (hfit : t.order * t.m < 256 ^ ob) (hok : ∀ e ∈ es, ok e.2) (hne : es ≠ []) :
    (writeTensor T ob wt t).All (fun bs => bs = es.flatMap (fun e => Spec.tensorLine wt.wgt txt e)) := by
  refine R.All.bind (R.All.choose (fun its hits => hits)) (fun its hits => ?_)
  have hlt : ∀ e ∈ its.flatten, e < es.length := by
    intro e he
    rw [hits.chunks, h.m, List.mem_range] at he
    exact he
  refine (twoPass_all (line := lineAt (fun e => Spec.tensorLine wt.wgt txt e) es) ?_ ?_).mono (fun bs hbs => ?_)
  · intro e he
    have hg := List.getElem?_eq_getElem (hlt e he)
    rw [lineAt_some hg]
    exact tensorLine_ok h ho hfit (fun hg p hpm => hp.write (hok p hpm) hg) hg
  · have h0 : 0 ∈ its.flatten := by
      rw [hits.chunks, h.m, List.mem_range]
      exact List.length_pos_iff.mpr hne
    intro hn
    have := List.flatMap_eq_nil_iff.mp hn 0 h0
    rw [lineAt_some (List.getElem?_eq_getElem (hlt 0 h0))] at this
    exact tensorLine_ne _ _ _ this
  · rw [hbs, hits.chunks, h.m]
    exact flatMap_range_get es _ _ (fun i a ha => lineAt_some ha)

/-- A tensor of order 3. -/
def wrTensor : Tensor Nat := { c := [0, 1, 2, 30, 4, 5], w := [1, 20], order := 3, m := 2 }

example : HoldsT wrTensor true [([0, 1, 2], 1), ([30, 4, 5], 20)] ∧ 0 < wrTensor.order ∧ wrTensor.order * wrTensor.m < 256 ^ 1 :=
  ⟨⟨rfl, by decide, rfl, fun _ => rfl⟩, by decide, by decide⟩

example : ([([0, 1, 2], 1), ([30, 4, 5], 20)] : List (List Nat × Nat)).flatMap (fun e => Spec.tensorLine true Spec.showNat e) = str "0 1 2 1\n30 4 5 20\n" := by decide

/-- Outside of C48: for a weighted tensor of order 0 the file is too small for its lines, and stores go beyond it. -/
theorem C48_order_zero : (writeTensor 1 8 wtUint { c := [], w := [7], order := 0, m := 1 }).Out (.error .oob) :=
  ⟨.ok [[0]], ⟨_, ⟨rfl, rfl⟩, rfl⟩, _, rfl, _, rfl, _, rfl, _, interleave_flatten _, by decide⟩

/-! ## C50 -/

/-- C50 is false: writing a COO without entries throws `Error`, with every number of threads. -/
theorem C50_write_empty_violated (T : Nat) (wt : WText W) (c : Coo W) (h : c.m = 0) (o : M (List Byte)) (ho : (writeCoo T wt c).Out o) :
    o = .error .error := by
  obtain ⟨o', ⟨its, hits, rfl⟩, ho⟩ := ho
  have hn : ∀ l ∈ its, l = [] := by
    have := hits.chunks
    rw [h, List.range_zero] at this
    simpa using this
  have hs : mapE (sizeLoopE (cooLineSize wt c)) its = .ok (its.map (fun _ => 0)) :=
    mapE_mem_ok (fun l hl => by rw [hn l hl]; rfl)
  obtain ⟨o1, h1, ho⟩ := ho
  cases h1
  rw [hs] at ho
  obtain ⟨o2, h2, ho⟩ := ho
  cases h2
  have htot := total_ok (its.map (fun _ => 0)) 0
  rw [List.length_map] at htot
  have hz : (its.map (fun _ => 0)).sum = 0 := by
    clear hs ho hits htot hn
    induction its with
    | nil => rfl
    | cons a its ih => simp [ih]
  simp only [posOffsets] at ho
  rw [htot, hz] at ho
  exact ho

/-- C50, the part that holds: `write` succeeds for all other COOs (with integral weights that are not the smallest
value). -/
theorem C50_nonempty_partial (T : Nat) (wt : WText W) (txt : W → List Byte) (ok : W → Prop) (hp : Printer wt txt ok) (c : Coo W)
    (es : List (Nat × Nat × W)) (h : Holds c wt.wgt es) (hok : ∀ e ∈ es, ok e.2.2) (hne : c.m ≠ 0) :
    (writeCoo T wt c).All (fun bs => bs ≠ []) := by
  have hes : es ≠ [] := by rintro rfl; exact hne h.m
  refine (C46_coo_write T wt txt ok hp c es h hok hes).mono (fun bs hbs hn => ?_)
  rw [hn] at hbs
  obtain ⟨a, es', rfl⟩ := List.exists_cons_of_ne_nil hes
  rw [List.flatMap_cons] at hbs
  exact cooLine_ne _ _ _ (List.append_eq_nil_iff.mp hbs.symm).1

example : (writeCoo 2 wtNone { x := [], y := [], w := [], n := 0, m := 0, nrows := 0, ncols := 0 }).Any ∧ ({ x := [], y := [], w := [], n := 0, m := 0, nrows := 0, ncols := 0 } : Coo Unit).m = 0 :=
  ⟨(C46_write_runs 2 (by decide) 8 wtNone _ ⟨[], [], 1, 0⟩).1, rfl⟩

end Pigo
