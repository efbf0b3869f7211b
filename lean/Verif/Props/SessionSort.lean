import Verif.Props.SessionLoad
import Verif.Spec.SessionSort

/-!
# C101: programs that sort at their end

Their results are sorted, and then the arrays do not depend on threads or schedules.
-/

namespace Pigo.Session

variable {W : Type}

/-! ## sorted rows -/

theorem sorted_of {wgt : Bool} {wlt : W → W → Prop} {c : Csr W} {rows : List (List (Nat × W))} (h : IsCsr c wgt rows)
    (hs : ∀ (v : Nat) (l : List (Nat × W)), rows[v]? = some l →
      (l.map Prod.fst).Pairwise (fun a b => ¬ b < a) ∧ (wgt = true → l.Pairwise (fun a b => ¬ pairLt wlt b a))) :
    Spec.SortedCsr wgt wlt c := by
  rw [Spec.SortedCsr, isCsr_edges h, rowTriples, map_flatMap', List.pairwise_flatMap]
  refine ⟨fun v hv => ?_, (range_pairwise _).imp ?_⟩
  · obtain ⟨h1, h2⟩ := hs v _ (getD_some (List.mem_range.mp hv))
    rw [List.map_map, List.pairwise_map]
    cases wgt with
    | true =>
      refine (h2 rfl).imp ?_
      intro a b hab
      refine .inr ⟨rfl, ?_⟩
      simp only [pairLt, not_or, not_and, not_not, Nat.not_lt] at hab
      rcases Nat.lt_or_ge a.1 b.1 with hlt | hge
      · exact .inl hlt
      · refine .inr ⟨Nat.le_antisymm hab.1 hge, ?_⟩
        intro w w' e1 e2
        cases e1
        cases e2
        exact hab.2 (Nat.le_antisymm hab.1 hge ▸ Nat.le_refl _)
    | false =>
      rw [List.pairwise_map] at h1
      refine h1.imp ?_
      intro a b hab
      refine .inr ⟨rfl, ?_⟩
      rcases Nat.lt_or_ge a.1 b.1 with hlt | hge
      · exact .inl hlt
      · exact .inr ⟨Nat.le_antisymm (Nat.not_lt.mp hab) hge, fun w w' e1 _ => by cases e1⟩
  · intro a b hab x hx y hy
    simp only [List.map_map] at hx hy
    obtain ⟨_, _, rfl⟩ := List.mem_map.mp hx
    obtain ⟨_, _, rfl⟩ := List.mem_map.mp hy
    exact .inl hab

variable [Inhabited W]

theorem sort_sorted {T : Nat} {wgt : Bool} {wlt : W → W → Prop} {c : Csr W} (h : Pigo.Spec.ValidCsr c wgt) :
    (sortCsr T wgt wlt c).All (fun r => Spec.SortedCsr wgt wlt r) := by
  refine (sortCsr_all (T := T) (wlt := wlt) (isCsr_of_valid h (default : W))).mono ?_
  rintro r ⟨rows', h1, hlen, _, _, _, _, _, _, hrows⟩
  refine sorted_of h1 (fun v l hl => ?_)
  have hv : v < (rowsOfCsr wgt default c).length := by
    rw [← hlen]
    exact (List.getElem?_eq_some_iff.mp hl).1
  obtain ⟨_, g2, g3⟩ := hrows v _ l (getD_some hv) hl
  exact ⟨g2, fun hw => (g3 hw).2⟩

theorem dups_sorted {lw T : Nat} (hT : 0 < T) {wgt : Bool} {wlt : W → W → Prop} {c : Csr W} (h : Pigo.Spec.ValidCsr c wgt)
    (hl : ∀ u ∈ c.endpoints, u + 1 < 2 ^ lw) (hfit : Pigo.Spec.OffsetsFit lw c.n) :
    (Pigo.withoutDups lw T wgt wlt c).All (fun r => Spec.SortedCsr wgt wlt r.2) := by
  refine (C34_without_dups lw T hT wgt wlt c h hl hfit).mono ?_
  rintro r ⟨⟨hv, hn, _, _, hrow⟩, _⟩
  have hi := isCsr_of_valid hv (default : W)
  refine sorted_of hi (fun v l hl => ?_)
  have hlt : v < c.n := by
    rw [← hn, hi.n]
    exact (List.getElem?_eq_some_iff.mp hl).1
  have := (hrow v hlt).1
  rw [hi.row hl] at this
  refine ⟨this.imp (fun hab => by omega), fun _ => ?_⟩
  rw [List.pairwise_map] at this
  refine this.imp ?_
  intro a b hab hp
  rcases hp with hp | ⟨hp, _⟩ <;> omega

/-! ## programs -/

/-- The object is sorted, if it is a CSR. -/
def SortedObj (wgt : Bool) (wlt : W → W → Prop) : (k : Kind) → Obj W k → Prop
  | .csr, c => Spec.SortedCsr wgt wlt c
  | _, _ => True

/-- Whether the result of the operation is sorted, when `b` says whether its argument is. -/
def sortsOp (b : Prop) : {k k' : Kind} → Op k k' → Prop
  | _, _, .sort => True
  | _, _, .withoutDups => True
  | _, _, .saveCsr .csr _ _ => b
  | _, _, _ => False

omit [Inhabited W] in
theorem sortsLast_step {b : Prop} {k k' k'' : Kind} {T : Nat} {op : Op k k'} {p : Prog k' k''} :
    Spec.SortsLast b (.step T op p) = Spec.SortsLast (sortsOp b op) p := by
  cases op with
  | saveCsr _ fn pad => cases k' <;> simp [Spec.SortsLast, sortsOp]
  | _ => simp [Spec.SortsLast, sortsOp]

variable {E : Types W} {N : Nat} {ok : W → Prop}

theorem saveCsr_sorted (hE : TypesOk E N ok) {T : Nat} (hT : 0 < T) {c : Csr W} {s : Net W} (h : Spec.CsrIs E.wk.wgt c s) (hs : Within N ok s)
    (hm : s.es.length < 2 ^ (8 * E.ob)) (fn : List Byte) (pad : Nat) {b : Prop} (hb : b → Spec.SortedCsr E.wk.wgt E.wlt c) :
    (saveCsr T E.lb E.ob E.wk.wgt E.cw c >>= fun bs => load (E.params T) .csr ⟨bs, pad⟩ fn).All
      (fun r => b → Spec.SortedCsr E.wk.wgt E.wlt r) := by
  rw [← saveCsr_norm]
  have hf := fits_csr hE h hs hm
  have hr := C38_csr_roundtrip (E.params T) T hT hT hE.lb.2 hE.ob _ hf fn pad .auto (.inl rfl)
  refine R.All.bindOut (saveCsr_all hT E.cw hf) (fun bs hbs _ => R.All.bind (R.All.of_bind hr hbs) (fun r hr => R.All.pure (fun g => ?_)))
  rw [hr]
  have hi := isCsr_of_valid h.valid (default : W)
  have := hb g
  rw [Spec.SortedCsr, isCsr_edges hi] at this
  rw [Spec.SortedCsr, isCsr_edges (normCsr_isCsr hi)]
  exact this

theorem op_sorted (hE : TypesOk E N ok) {T : Nat} (hT : 0 < T) {k k' : Kind} (op : Op k k') {o : Obj W k} {s : Net W}
    (h : Spec.Is E.wk.wgt k o s) (hs : Within N ok s) (hm : s.es.length < 2 ^ (8 * E.ob)) {b : Prop} (hb : b → SortedObj E.wk.wgt E.wlt k o)
    {P : Obj W k' → Prop} (hall : (op.run E T o).All P) :
    (op.run E T o).All (fun o' => sortsOp b op → SortedObj E.wk.wgt E.wlt k' o') := by
  cases op with
  | sort => exact (sort_sorted (Spec.CsrIs.valid h)).mono (fun r hr _ => hr)
  | withoutDups =>
    have hl : ∀ u ∈ Csr.endpoints o, u + 1 < 2 ^ (8 * E.lb) := by
      intro u hu
      obtain ⟨e, he, rfl⟩ := endpoint_edge (Spec.CsrIs.valid h) hu
      have h1 := (hs.ends e ((Spec.CsrIs.edges h).mem_iff.mp he)).2
      have h2 := hs.n
      have h3 := hE.N
      omega
    exact R.All.bind (dups_sorted hT (Spec.CsrIs.valid h) hl (fit_of hE (n := Csr.n o) (by rw [Spec.CsrIs.n h]; exact hs.n)))
      (fun r hr => R.All.pure (fun _ => hr))
  | saveCsr k fn pad =>
    cases k' with
    | csr =>
      exact saveCsr_sorted hE hT h hs hm fn pad hb
    | _ => exact hall.mono (fun _ _ g => g.elim)
  | _ => exact hall.mono (fun _ _ g => g.elim)

theorem run_sorted (hE : TypesOk E N ok) : ∀ {k k' : Kind} (p : Prog k k') {o : Obj W k} {s : Net W}, Spec.Is E.wk.wgt k o s → Within N ok s →
    Spec.peak p s.es.length < 2 ^ (8 * E.ob) → Spec.Fine p → (Spec.Writes p → TextOk E ok ∧ s.es ≠ []) →
    (Spec.Converts p → E.wk.wgt = true → E.stor ≠ .vector) → ∀ (b : Prop), (b → SortedObj E.wk.wgt E.wlt k o) →
    (p.run E o).All (fun o' => Spec.SortsLast b p → SortedObj E.wk.wgt E.wlt k' o')
  | _, _, .done, o, s, _, _, _, _, _, _, b, hb => R.All.pure hb
  | _, _, .step T op p, o, s, h, hs, hm, hf, hw, hc, b, hb => by
    rw [fine_step] at hf
    rw [writes_step] at hw
    rw [converts_step] at hc
    have hm0 : s.es.length < 2 ^ (8 * E.ob) := Nat.lt_of_le_of_lt (le_peak _ _) hm
    rw [peak_step] at hm
    have ha := op_all hE hf.1 op h hs (Nat.lt_of_le_of_lt (le_peak p _) hm) hf.2.1 (fun g => hw (.inl g)) (fun g => hc (.inl g))
    refine R.All.bind (ha.and (op_sorted hE hf.1 op h hs hm0 hb ha)) ?_
    rintro o' ⟨⟨s', hst, ho'⟩, hb'⟩
    obtain ⟨h1, h2, h3⟩ := step_cases hst hs (fun g => (hw (.inl g)).2)
    rw [sortsLast_step]
    exact run_sorted hE p ho' h1 (Nat.lt_of_le_of_lt (peak_mono p h2) hm) hf.2.2 (fun g => ⟨(hw (.inr g)).1, h3 (hw (.inr g)).2⟩)
      (fun g => hc (.inr g)) _ hb'

omit [Inhabited W] in
theorem Weights.text {entry : List Byte → Option (Nat × Nat × W)} (h : Weights E entry ok) : TextOk E ok := by
  cases h with
  | none E hwk hwt =>
    have hw : E.wk.wgt = false := by rw [hwk]; rfl
    refine ⟨_, Pigo.Spec.entry0, _, _, by rw [hwt]; exact .none, by rw [hwk]; exact .none, by rw [hwt, hwk]; rfl, fun e _ => ⟨trivial, trivial, ?_, ?_⟩⟩
    · intro g
      rw [hw] at g; cases g
    · rw [hw]
      exact entry0_words e _
  | unsigned E ww hwk hwt _ =>
    have hw : E.wk.wgt = true := by rw [hwk]; rfl
    refine ⟨_, Pigo.Spec.entryU, _, _, by rw [hwt]; exact .uint, by rw [hwk]; exact .uint ww, by rw [hwt, hwk]; rfl,
      fun e he => ⟨trivial, he, fun _ => showNat_word _, ?_⟩⟩
    rw [hw]
    exact entryU_words e
  | signed E ww hwk hwt _ =>
    have hw : E.wk.wgt = true := by rw [hwk]; rfl
    refine ⟨_, Pigo.Spec.entryS, _, _, by rw [hwt]; exact .sint ww, by rw [hwk]; exact .sint ww, by rw [hwt, hwk]; rfl,
      fun e he => ⟨he, he, fun _ => showInt_word _, ?_⟩⟩
    rw [hw]
    exact entryW_words e (showInt_word _) (parseSigned_showInt _)
  | float E ops txt hwk hwt =>
    have hw : E.wk.wgt = true := by rw [hwk]; rfl
    refine ⟨txt, Pigo.Spec.entryF (evalLit ops), fun _ => True, fun _ => True, by rw [hwt]; exact .float txt, by rw [hwk]; exact .float ops,
      by rw [hwt, hwk]; rfl, fun e he => ⟨trivial, trivial, fun _ => he.2.1, ?_⟩⟩
    rw [hw]
    exact entryW_words e he.2.1 he.2.2

/-- **C101**, programs that sort at their end: every execution ends with a CSR that holds the graph that the operations make of `s`, and its
rows are sorted by endpoint, edges with equal endpoints by weight. -/
theorem C101_sorted {entry : List Byte → Option (Nat × Nat × W)} (hW : Weights E entry ok) {k : Kind} (p : Prog k .csr) (o : Obj W k) (s : Net W)
    (h : Spec.Is E.wk.wgt k o s) (hr : Spec.Ready E ok p s) (hp : Spec.SortsLast False p) (out : M (Csr W)) (ho : (p.run E o).Out out) :
    ∃ c s', out = .ok c ∧ Spec.Does E.wlt p s s' ∧ Spec.CsrIs E.wk.wgt c s' ∧ Spec.SortedCsr E.wk.wgt E.wlt c := by
  obtain ⟨c, s', rfl, h1, h2⟩ := hW.computes p o s h hr out ho
  obtain ⟨c', hc, h3⟩ := run_sorted (N := s.n) (hW.types hr) p h ⟨Nat.le_refl _, hr.ends, hr.weights⟩ hr.ordinals hr.fine
    (fun g => ⟨hW.text, hr.edges g⟩) hr.stor False (fun g => g.elim) _ ho
  cases hc
  exact ⟨c, s', rfl, h1, h2, h3 hp⟩

/-! ## the arrays are determined -/

omit [Inhabited W] in
theorem range_flatMap_one {β : Type} (g : Nat → List β) (v : Nat) : ∀ n, (List.range n).flatMap (fun a => if a = v then g a else []) = if v < n then g v else []
  | 0 => rfl
  | n+1 => by
    rw [List.range_succ, List.flatMap_append, range_flatMap_one g v n, List.flatMap_singleton]
    rcases Nat.lt_trichotomy v n with h | h | h
    · rw [if_pos h, if_neg (by omega), if_pos (by omega), List.append_nil]
    · subst h
      rw [if_neg (by omega), if_pos rfl, if_pos (by omega), List.nil_append]
    · rw [if_neg (by omega), if_neg (by omega), if_neg (by omega), List.append_nil]

omit [Inhabited W] in
theorem block_len (wgt : Bool) (rows : List (List (Nat × W))) {v : Nat} (hv : v < rows.length) :
    (((rowTriples rows).map (view wgt)).filter (fun e => e.1 == v)).length = (rows.getD v []).length := by
  rw [rowTriples, map_flatMap', List.filter_flatMap]
  have : (List.range rows.length).flatMap (fun a => (((rows.getD a []).map (fun p => (a, p.1, p.2))).map (view wgt)).filter (fun e => e.1 == v)) =
      (List.range rows.length).flatMap (fun a => if a = v then (((rows.getD a []).map (fun p => (a, p.1, p.2))).map (view wgt)) else []) := by
    apply flatMap_congr'
    intro a _
    split
    · next h =>
      rw [List.filter_eq_self]
      intro e he
      obtain ⟨e', he', rfl⟩ := List.mem_map.mp he
      obtain ⟨_, _, rfl⟩ := List.mem_map.mp he'
      simpa [view] using h
    · next h =>
      rw [List.filter_eq_nil_iff]
      intro e he
      obtain ⟨e', he', rfl⟩ := List.mem_map.mp he
      obtain ⟨_, _, rfl⟩ := List.mem_map.mp he'
      simpa [view] using h
  rw [this, range_flatMap_one, if_pos hv, List.length_map, List.length_map]

theorem edges_arrays {wgt : Bool} {c c' : Csr W} (hv : Pigo.Spec.ValidCsr c wgt) (hv' : Pigo.Spec.ValidCsr c' wgt) (hn : c.n = c'.n)
    (he : Spec.csrEdges wgt c = Spec.csrEdges wgt c') : Spec.SameArrays wgt c c' := by
  have hi := isCsr_of_valid hv (default : W)
  have hi' := isCsr_of_valid hv' (default : W)
  generalize rowsOfCsr wgt default c = rows at hi
  generalize rowsOfCsr wgt default c' = rows' at hi'
  rw [isCsr_edges hi, isCsr_edges hi'] at he
  have hlen : rows.length = rows'.length := by rw [← hi.n, ← hi'.n, hn]
  have hr : ∀ (rows : List (List (Nat × W))), (rowTriples rows).map (fun e => e.2) = rows.flatten := by
    intro rows
    rw [rowTriples, map_flatMap']
    have : (List.range rows.length).flatMap (fun a => ((rows.getD a []).map (fun p => (a, p.1, p.2))).map (fun e : Nat × Nat × W => e.2)) =
        (List.range rows.length).flatMap (fun a => rows.getD a []) := by
      apply flatMap_congr'
      intro a _
      rw [List.map_map]
      exact List.map_id _
    rw [this, List.flatMap_def]
    congr 1
    apply List.ext_getElem?
    intro i
    rw [List.getElem?_map]
    rcases Nat.lt_or_ge i rows.length with h | h
    · rw [List.getElem?_range h, getD_some h]; rfl
    · rw [List.getElem?_eq_none (by simpa using h), List.getElem?_eq_none h]; rfl
  have hends : ∀ (rows : List (List (Nat × W))), ((rowTriples rows).map (view wgt)).map (fun e => e.2.1) = rows.flatten.map Prod.fst := by
    intro rows
    rw [← hr, List.map_map, List.map_map]
    rfl
  have hflat : rows.flatten.map Prod.fst = rows'.flatten.map Prod.fst := by rw [← hends, ← hends, he]
  have hlens : rows.map List.length = rows'.map List.length := by
    apply List.ext_getElem (by simpa using hlen)
    intro i h1 h2
    rw [List.length_map] at h1 h2
    have a := block_len wgt rows h1
    have b := block_len wgt rows' h2
    rw [he, b, List.getD_eq_getElem?_getD, List.getD_eq_getElem?_getD, List.getElem?_eq_getElem h1, List.getElem?_eq_getElem h2] at a
    simpa using a.symm
  refine ⟨hn, ?_, by rw [hi.offsets, hi'.offsets, hlens], by rw [hi.endpoints, hi'.endpoints, hflat], fun hw => ?_⟩
  · rw [hi.m, hi'.m]
    have := congrArg List.length hflat
    rwa [List.length_map, List.length_map] at this
  · subst hw
    rw [hi.weights rfl, hi'.weights rfl, ← hr, ← hr]
    have := congrArg (List.map (fun e => e.2.2)) he
    rw [List.map_map, List.map_map] at this
    have inj : Function.Injective (List.map (some : W → Option W)) := List.map_injective_iff.mpr (fun a b h => by injection h)
    apply inj
    rw [List.map_map, List.map_map, List.map_map, List.map_map]
    exact this

omit [Inhabited W] in
theorem order_antisymm {wlt : W → W → Prop} (hw : ∀ a b, ¬ wlt a b → ¬ wlt b a → a = b) {wgt : Bool} {e f : Nat × Nat × Option W}
    (he : e.2.2.isSome = wgt) (hf : f.2.2.isSome = wgt) (h1 : Spec.InOrder wlt e f) (h2 : Spec.InOrder wlt f e) : e = f := by
  obtain ⟨a, b, w⟩ := e
  obtain ⟨a', b', w'⟩ := f
  simp only [Spec.InOrder] at h1 h2
  rcases h1 with h1 | ⟨rfl, h1⟩
  · rcases h2 with h2 | ⟨h2, _⟩ <;> omega
  · rcases h2 with h2 | ⟨_, h2⟩
    · omega
    · rcases h1 with h1 | ⟨rfl, h1⟩
      · rcases h2 with h2 | ⟨h2, _⟩ <;> omega
      · rcases h2 with h2 | ⟨_, h2⟩
        · omega
        · simp only at he hf
          cases w with
          | none =>
            cases w' with
            | none => rfl
            | some _ => rw [← he] at hf; cases hf
          | some x =>
            cases w' with
            | none => rw [← he] at hf; cases hf
            | some y => rw [hw x y (h2 y x rfl rfl) (h1 x y rfl rfl)]

/-- A graph has one sorted CSR. -/
theorem C101_sorted_unique {wlt : W → W → Prop} (hw : ∀ a b, ¬ wlt a b → ¬ wlt b a → a = b) {wgt : Bool} {c c' : Csr W} {s s' : Net W}
    (h : Spec.CsrIs wgt c s) (h' : Spec.CsrIs wgt c' s') (hs : Spec.Same s s') (ho : Spec.SortedCsr wgt wlt c) (ho' : Spec.SortedCsr wgt wlt c') :
    Spec.SameArrays wgt c c' := by
  have hu := csr_uniform h
  have hu' := same_uniform (same_symm hs) (csr_uniform h')
  refine edges_arrays h.valid h'.valid (by rw [h.n, h'.n, hs.1]) ?_
  refine List.Perm.eq_of_pairwise (le := Spec.InOrder wlt) ?_ ho ho' (h.edges.trans (hs.2.symm.trans h'.edges.symm))
  intro e f he hf h1 h2
  exact order_antisymm hw (hu e (h.edges.mem_iff.mp he)) (hu' f (hs.2.mem_iff.mp (h'.edges.mem_iff.mp hf))) h1 h2

/-- **C101**, determinism: when weights that are not smaller than each other are equal, a program that sorts at its end leaves the same arrays
in every execution, with any numbers of threads, from any objects holding the graph. -/
theorem C101_same_arrays {entry : List Byte → Option (Nat × Nat × W)} (hW : Weights E entry ok)
    (hw : ∀ a b, ¬ E.wlt a b → ¬ E.wlt b a → a = b) {k : Kind} (p p' : Prog k .csr) (hops : Spec.SameOps p p') (o o' : Obj W k) (s : Net W)
    (h : Spec.Is E.wk.wgt k o s) (h' : Spec.Is E.wk.wgt k o' s) (hr : Spec.Ready E ok p s) (hr' : Spec.Ready E ok p' s)
    (hp : Spec.SortsLast False p) (out out' : M (Csr W)) (ho : (p.run E o).Out out) (ho' : (p'.run E o').Out out') :
    ∃ c c', out = .ok c ∧ out' = .ok c' ∧ Spec.SameArrays E.wk.wgt c c' := by
  have hp' : Spec.SortsLast False p' := by
    have : ∀ {k k' : Kind} {p p' : Prog k k'}, Spec.SameOps p p' → ∀ b, Spec.SortsLast b p → Spec.SortsLast b p' := by
      intro k k' p p' hops
      induction hops with
      | done => exact fun b hb => hb
      | step T T' op _ ih =>
        intro b hb
        rw [sortsLast_step] at hb ⊢
        exact ih _ hb
    exact this hops _ hp
  obtain ⟨c, s1, rfl, a1, a2, a3⟩ := C101_sorted hW p o s h hr hp out ho
  obtain ⟨c', s2, rfl, b1, b2, b3⟩ := C101_sorted hW p' o' s h' hr' hp' out' ho'
  exact ⟨c, c', rfl, rfl, C101_sorted_unique hw a2 b2 (does_same hw hops (same_refl s) (is_uniform h) a1 b1) a3 b3⟩

/-! ## Instances -/

/-- Both directions of the edges, sorted, saved and loaded. -/
def exSort (T : Nat) : Prog .coo .csr := .step T .toCsr (.step 1 (.toCoo .symmetric) (.step T .toCsr (.step T .sort (.step 2 (.saveCsr .csr (str "c.bin") 0) .done))))

theorem exSort_ready (T : Nat) (hT : 0 < T) : Spec.Ready exTypes (fun w => w.natAbs < 2 ^ (64 - 1)) (exSort T) exNet :=
  ⟨by decide, by decide, intLt_strictWeak, by decide, by decide, by show (_ : Nat) < _; simp [exSort, Spec.peak, exNet, exTypes],
    ⟨hT, by decide, hT, hT, by decide, trivial⟩, exReady.weights, (fun h => h.elim), fun _ _ => by decide⟩

/-- The arrays of the CSR, in every execution and with any number of threads. -/
example (T : Nat) (hT : 0 < T) (out : M (Csr Int)) (ho : ((exSort T).run exTypes exCoo).Out out) :
    ∃ c, out = .ok c ∧ c.n = 4 ∧ c.offsets = [0, 3, 7, 10, 12] ∧ c.endpoints = [2, 3, 3, 1, 1, 2, 2, 0, 1, 1, 0, 0] ∧
      c.weights = [7, -1, 2, 0, 0, 4, 5, 7, 4, 5, -1, 2] := by
  obtain ⟨c, s', rfl, hd, hi, hs⟩ := C101_sorted exSigned (exSort T) exCoo exNet exNet_is (exSort_ready T hT) trivial out ho
  obtain ⟨s1, h1, s2, h2, s3, h3, s4, h4, s5, h5, rfl⟩ := hd
  have hsame : Spec.Same ⟨4, exNet.es ++ exNet.es.map Spec.swap⟩ s' := by
    have : Spec.Same ⟨4, exNet.es ++ exNet.es.map Spec.swap⟩ ⟨s1.n, s1.es ++ s1.es.map Spec.swap⟩ := ⟨h1.1, h1.2.append (h1.2.map _)⟩
    exact same_trans this (same_trans h2 (same_trans h3 (same_trans h4 h5)))
  let c0 : Csr Int := ⟨[0, 3, 7, 10, 12], [2, 3, 3, 1, 1, 2, 2, 0, 1, 1, 0, 0], [7, -1, 2, 0, 0, 4, 5, 7, 4, 5, -1, 2], 4, 12, 4, 4⟩
  have h0 : Spec.CsrIs true c0 ⟨4, exNet.es ++ exNet.es.map Spec.swap⟩ :=
    ⟨⟨by decide, by decide, by decide, by decide, by decide, by decide⟩, rfl, by decide⟩
  have ho0 : Spec.SortedCsr true exTypes.wlt c0 := by
    have : Spec.csrEdges true c0 = [(0, 2, some 7), (0, 3, some (-1)), (0, 3, some 2), (1, 1, some 0), (1, 1, some 0), (1, 2, some 4), (1, 2, some 5),
      (2, 0, some 7), (2, 1, some 4), (2, 1, some 5), (3, 0, some (-1)), (3, 0, some 2)] := by decide
    rw [Spec.SortedCsr, this]
    simp [Spec.InOrder, exTypes]
  have := C101_sorted_unique (wlt := exTypes.wlt) (fun a b (x : ¬ a < b) (y : ¬ b < a) => by omega) h0 hi hsame ho0 hs
  exact ⟨c, rfl, this.n.symm, this.offsets.symm, this.endpoints.symm, (this.weights rfl).symm⟩

/-- `C101_same_arrays` applies to `exSort` with two and with nine threads. -/
example (out out' : M (Csr Int)) (ho : ((exSort 2).run exTypes exCoo).Out out) (ho' : ((exSort 9).run exTypes exCoo).Out out') :
    ∃ c c', out = .ok c ∧ out' = .ok c' ∧ Spec.SameArrays true c c' :=
  C101_same_arrays exSigned (fun a b (x : ¬ a < b) (y : ¬ b < a) => by omega) (exSort 2) (exSort 9)
    (.step _ _ _ (.step _ _ _ (.step _ _ _ (.step _ _ _ (.step _ _ _ .done))))) exCoo exCoo exNet exNet_is exNet_is (exSort_ready 2 (by decide))
    (exSort_ready 9 (by decide)) trivial out out' ho ho'

end Pigo.Session
