import Verif.Spec.Csr
import Verif.Lemmas.EdgeFile

/-!
# Properties of loading edge lists (C08–C16, C20)

Every theorem is about `LoadEdgeList`: all executions of `COO(fn, EDGE_LIST)` with `T` threads, i.e. all
interleavings of the threads' stores and all contents of the uninitialised arrays.

`0 < μ.pad` says that the file size is not a multiple of the page size (see C19 for the other case).
-/

namespace Pigo

variable {W : Type}

/-- An execution of the constructor `COO(fn, EDGE_LIST)` on a mapped file (impl/coo.impl.hpp 18–29, 43–45). -/
def LoadEdgeList (μ : Mapping) (lw ow : Nat) (cfg : Cfg) (wk : WKind W) (T : Nat) (out : M (Coo W)) : Prop :=
  ReadEl μ lw ow cfg wk T (fileReader μ) out

/-- Stored entries for the file entries `es` under the flags. -/
def storedAll (cfg : Cfg) (es : List (Nat × Nat × W)) : List (Nat × Nat × W) :=
  es.flatMap (Spec.stored cfg.sym cfg.ut cfg.sl)

/-- Entry without weight. -/
def unw (e : Nat × Nat) : Nat × Nat × Unit := (e.1, e.2, ())

theorem edge_ints {l : List Byte} (h : Spec.ints l = []) : Spec.edge l = none := by simp [Spec.edge, h]

theorem entries_edges (file : List Byte) : Spec.entries Spec.entry0 file = (Spec.edges file).map unw := by
  unfold Spec.entries Spec.edges
  rw [List.map_filterMap]
  congr 1
  funext l
  by_cases h : Spec.ints l = []
  · simp [h, edge_ints h]
  · simp only [h, if_false, Spec.entry0]; rfl

theorem fileOk_edges {file : List Byte} (h : Spec.EdgeListOk file) : Spec.FileOk Spec.entry0 file := by
  refine ⟨fun l hl => ?_, h.last⟩
  rcases h.line l hl with h | ⟨e, he⟩
  · exact .inl h
  · exact .inr (by simp [Spec.entry0, he])

/-- Any execution on a well-formed file produces the stored entries (labels reduced to the label type). -/
theorem load_any {μ : Mapping} (hpad : 0 < μ.pad) {lw ow : Nat} {wk : WKind W}
    {entry : List Byte → Option (Nat × Nat × W)} {wp : Nat × Nat × W → Prop} (hf : FormatOk lw wk entry wp)
    (hok : Spec.FileOk entry μ.bytes) (hwp : ∀ en ∈ Spec.entries entry μ.bytes, wp en)
    (hlab : ∀ e ∈ Spec.entries entry μ.bytes, e.1 < 2 ^ lw ∧ e.2.1 < 2 ^ lw)
    (cfg : Cfg) {T : Nat} (hT : 0 < T)
    (hd : WTrivial wk ∨ ∀ en ∈ Spec.entries entry μ.bytes, storedC cfg en ≠ [])
    (hm : (storedAll cfg (Spec.entries entry μ.bytes)).length < 2 ^ ow) {out : M (Coo W)}
    (hrun : LoadEdgeList μ lw ow cfg wk T out) :
    out = .ok (cooOf lw cfg wk.wgt (Spec.entries entry μ.bytes)) := by
  have h := readEl_file hpad hf hok hwp cfg hT (out := out) (ow := ow)
  rw [map_modL_id hlab] at h
  exact h hd hm hrun

theorem cooOf_holds (lw : Nat) (cfg : Cfg) (wgt : Bool) (es : List (Nat × Nat × W)) :
    Holds (cooOf lw cfg wgt es) wgt (storedAll cfg es) :=
  ⟨rfl, rfl, rfl, fun h => by simp [cooOf, h, storedAll]⟩

/-- Unweighted files, any flags. -/
theorem load_unweighted {μ : Mapping} (hpad : 0 < μ.pad) {lw ow : Nat} (hok : Spec.EdgeListOk μ.bytes)
    (hlab : ∀ e ∈ Spec.edges μ.bytes, e.1 < 2 ^ lw ∧ e.2 < 2 ^ lw) (cfg : Cfg) {T : Nat} (hT : 0 < T)
    (hm : (storedAll cfg ((Spec.edges μ.bytes).map unw)).length < 2 ^ ow) {out : M (Coo Unit)}
    (hrun : LoadEdgeList μ lw ow cfg wNone T out) :
    out = .ok (cooOf lw cfg false ((Spec.edges μ.bytes).map unw)) := by
  rw [← entries_edges] at hm ⊢
  refine load_any hpad (format_none lw) (fileOk_edges hok) (fun _ _ => trivial) ?_ cfg hT (.inl wNone_trivial) hm hrun
  intro e he
  rw [entries_edges, List.mem_map] at he
  obtain ⟨a, ha, rfl⟩ := he
  exact hlab a ha

/-! ### stored entries under the flags -/

theorem storedAll_plain (es : List (Nat × Nat × W)) : storedAll {} es = es := by
  unfold storedAll
  have : Spec.stored (W := W) false false false = fun e => [e] := by funext ⟨x, y, w⟩; simp [Spec.stored]
  rw [show ({} : Cfg).sym = false from rfl, show ({} : Cfg).ut = false from rfl, show ({} : Cfg).sl = false from rfl,
    this]
  exact List.flatMap_singleton' es

theorem flatMap_ite_filter {α : Type} (p : α → Bool) (es : List α) :
    es.flatMap (fun e => if p e then [e] else []) = es.filter p := by
  induction es with
  | nil => rfl
  | cons a es ih => rw [List.flatMap_cons, ih, List.filter_cons]; split <;> simp

/-! ### C08 -/

/-- **C08** Loading an unweighted edge list without flags gives one entry per data line, in file order, for
every thread count and every interleaving. -/
theorem C08_edge_list_entries (μ : Mapping) (hpad : 0 < μ.pad) (lw ow T : Nat) (hT : 0 < T)
    (hok : Spec.EdgeListOk μ.bytes)
    (hlab : ∀ e ∈ Spec.edges μ.bytes, e.1 < 2 ^ lw ∧ e.2 < 2 ^ lw)
    (hm : (Spec.edges μ.bytes).length < 2 ^ ow) (out : M (Coo Unit))
    (hrun : LoadEdgeList μ lw ow {} wNone T out) :
    ∃ c, out = .ok c ∧ c.x = (Spec.edges μ.bytes).map Prod.fst ∧ c.y = (Spec.edges μ.bytes).map Prod.snd ∧
      c.m = (Spec.edges μ.bytes).length := by
  have h := load_unweighted hpad hok hlab {} hT (by rw [storedAll_plain]; simpa using hm) hrun
  have hh := cooOf_holds lw {} false ((Spec.edges μ.bytes).map unw)
  rw [storedAll_plain] at hh
  refine ⟨_, h, ?_, ?_, ?_⟩
  · rw [hh.x, List.map_map]; rfl
  · rw [hh.y, List.map_map]; rfl
  · rw [hh.m, List.length_map]

/-- An execution exists: the theorems about all executions are not vacuous. -/
theorem load_exists (μ : Mapping) (lw ow : Nat) (cfg : Cfg) (wk : WKind W) (T : Nat) (j : Junk W) :
    ∃ out, LoadEdgeList μ lw ow cfg wk T out := readEl_exists cfg _ j

/-- A file with comments (with digits in them), blank lines, extra columns and text after the last newline. -/
def exFile : Mapping := ⟨str "# 9 9 comment\n1 2\n\n  3, 4 extra 7\n5\t5 % 6 6\n2 1\n# 12", 11⟩

theorem exFile_ok : Spec.EdgeListOk exFile.bytes := by
  refine ⟨?_, by decide⟩
  have : ∀ l ∈ Spec.lines exFile.bytes, Spec.ints l = [] ∨ (Spec.edge l).isSome := by decide
  intro l hl
  rcases this l hl with h | h
  · exact .inl h
  · exact .inr (Option.isSome_iff_exists.mp h)

theorem exFile_edges : Spec.edges exFile.bytes = [(1, 2), (3, 4), (5, 5), (2, 1)] := by decide

example : ∃ out, LoadEdgeList exFile 32 64 {} wNone 3 out ∧ 0 < exFile.pad ∧ Spec.EdgeListOk exFile.bytes ∧
    (∀ e ∈ Spec.edges exFile.bytes, e.1 < 2 ^ 32 ∧ e.2 < 2 ^ 32) ∧ (Spec.edges exFile.bytes).length < 2 ^ 64 ∧
    ∃ c, out = .ok c ∧ c.x = [1, 3, 5, 2] ∧ c.y = [2, 4, 5, 1] := by
  obtain ⟨out, h⟩ := load_exists exFile 32 64 {} wNone 3 ⟨fun _ => 0, fun _ => 0, fun _ => ()⟩
  have hl : ∀ e ∈ Spec.edges exFile.bytes, e.1 < 2 ^ 32 ∧ e.2 < 2 ^ 32 := by rw [exFile_edges]; decide
  have hm : (Spec.edges exFile.bytes).length < 2 ^ 64 := by rw [exFile_edges]; decide
  obtain ⟨c, hc, hx, hy, _⟩ := C08_edge_list_entries exFile (by decide) 32 64 3 (by decide) exFile_ok hl hm out h
  exact ⟨out, h, by decide, exFile_ok, hl, hm, c, hc, by rw [hx, exFile_edges]; rfl, by rw [hy, exFile_edges]; rfl⟩

/-! ### C09 -/

/-- **C09** The loaded COO does not depend on the number of threads, their interleaving or the contents of
uninitialised memory: unweighted files, any flags. -/
theorem C09_thread_independent (μ : Mapping) (hpad : 0 < μ.pad) (lw ow T T' : Nat) (hT : 0 < T) (hT' : 0 < T')
    (hok : Spec.EdgeListOk μ.bytes) (cfg : Cfg)
    (hlab : ∀ e ∈ Spec.edges μ.bytes, e.1 < 2 ^ lw ∧ e.2 < 2 ^ lw)
    (hm : 2 * (Spec.edges μ.bytes).length < 2 ^ ow) (out out' : M (Coo Unit))
    (hrun : LoadEdgeList μ lw ow cfg wNone T out) (hrun' : LoadEdgeList μ lw ow cfg wNone T' out') :
    out = out' ∧ ∃ c, out = .ok c := by
  have hlen : ∀ es : List (Nat × Nat × Unit), (storedAll cfg es).length ≤ 2 * es.length := by
    intro es
    induction es with
    | nil => simp [storedAll]
    | cons e es ih =>
      have h1 : storedAll cfg (e :: es) = storedC cfg e ++ storedAll cfg es := rfl
      rw [h1, List.length_append, List.length_cons]
      rcases storedC_shape cfg e with h | ⟨_, _, _, h⟩ | ⟨_, _, _, h⟩ <;> rw [h] <;>
        simp only [List.length_cons, List.length_nil] <;> omega
  have hm' : (storedAll cfg ((Spec.edges μ.bytes).map unw)).length < 2 ^ ow := by
    have := hlen ((Spec.edges μ.bytes).map unw)
    rw [List.length_map] at this; omega
  have h1 := load_unweighted hpad hok hlab cfg hT hm' hrun
  have h2 := load_unweighted hpad hok hlab cfg hT' hm' hrun'
  exact ⟨by rw [h1, h2], _, h1⟩

/-- **C09**, weighted files (unsigned, signed or floating point weights), for flags that drop no entry. -/
theorem C09_thread_independent_weighted (μ : Mapping) (hpad : 0 < μ.pad) (lw ow T T' : Nat) (hT : 0 < T)
    (hT' : 0 < T') (wk : WKind W) (entry : List Byte → Option (Nat × Nat × W)) (wp : Nat × Nat × W → Prop)
    (hf : Format wk entry wp) (hok : Spec.FileOk entry μ.bytes)
    (hwp : ∀ en ∈ Spec.entries entry μ.bytes, wp en)
    (hlab : ∀ e ∈ Spec.entries entry μ.bytes, e.1 < 2 ^ lw ∧ e.2.1 < 2 ^ lw)
    (cfg : Cfg) (hd : ∀ en ∈ Spec.entries entry μ.bytes, Spec.stored cfg.sym cfg.ut cfg.sl en ≠ [])
    (hm : (storedAll cfg (Spec.entries entry μ.bytes)).length < 2 ^ ow)
    (out out' : M (Coo W)) (hrun : LoadEdgeList μ lw ow cfg wk T out)
    (hrun' : LoadEdgeList μ lw ow cfg wk T' out') : out = out' ∧ ∃ c, out = .ok c := by
  have h1 := load_any hpad (hf.ok lw) hok hwp hlab cfg hT (.inr hd) hm hrun
  have h2 := load_any hpad (hf.ok lw) hok hwp hlab cfg hT' (.inr hd) hm hrun'
  exact ⟨by rw [h1, h2], _, h1⟩

example : 0 < exFile.pad ∧ Spec.EdgeListOk exFile.bytes ∧
    (∀ e ∈ Spec.edges exFile.bytes, e.1 < 2 ^ 16 ∧ e.2 < 2 ^ 16) ∧ 2 * (Spec.edges exFile.bytes).length < 2 ^ 8 := by
  refine ⟨by decide, exFile_ok, ?_, ?_⟩ <;> rw [exFile_edges] <;> decide

/-! ### C10 -/

theorem le_maxOf {l : List Nat} {a : Nat} (h : a ∈ l) : a ≤ Spec.maxOf l := by
  induction l with
  | nil => simp at h
  | cons b l ih =>
    rw [maxOf_cons]
    rcases List.mem_cons.mp h with rfl | h
    · omega
    · have := ih h; omega

theorem maxOf_mem {l : List Nat} (h : l ≠ []) : Spec.maxOf l ∈ l := by
  induction l with
  | nil => exact absurd rfl h
  | cons b l ih =>
    rw [maxOf_cons]
    by_cases hl : l = []
    · subst hl; simp [Spec.maxOf]
    · rcases Nat.le_total (Spec.maxOf l) b with h1 | h1
      · rw [Nat.max_eq_left h1]; exact List.mem_cons_self ..
      · rw [Nat.max_eq_right h1]; exact List.mem_cons_of_mem _ (ih hl)

theorem maxOf_lt {l : List Nat} {b : Nat} (hb : 0 < b) (h : ∀ a ∈ l, a < b) : Spec.maxOf l < b := by
  by_cases hl : l = []
  · subst hl; simpa [Spec.maxOf] using hb
  · exact h _ (maxOf_mem hl)

/-- Labels of stored entries are labels of the file. -/
theorem mem_stored {cfg : Cfg} {e s : Nat × Nat × W} (h : s ∈ Spec.stored cfg.sym cfg.ut cfg.sl e) :
    ∃ p, Spec.primary cfg.sym cfg.ut cfg.sl e = some p ∧
      ((s.1 = p.1 ∧ s.2.1 = p.2.1) ∨ (s.1 = p.2.1 ∧ s.2.1 = p.1 ∧ cfg.sym = true ∧ cfg.ut = false)) ∧
      ((p.1 = e.1 ∧ p.2.1 = e.2.1) ∨ (p.1 = e.2.1 ∧ p.2.1 = e.1)) := by
  obtain ⟨x, y, w⟩ := e
  obtain ⟨sym, ut, sl⟩ := cfg
  simp only [Spec.primary]
  simp only [Spec.stored] at h ⊢
  cases sym <;> cases ut <;> cases sl <;> by_cases hxy : x = y <;> by_cases hle : x ≤ y <;>
    simp_all <;> (try rcases h with h | h) <;> (try simp_all) <;> omega

theorem mem_prims {cfg : Cfg} {es : List (Nat × Nat × W)} {p : Nat × Nat × W} (h : p ∈ prims cfg es) :
    p ∈ storedAll cfg es := by
  unfold prims at h
  rw [List.mem_filterMap] at h
  obtain ⟨e, he, hp⟩ := h
  unfold storedAll
  rw [List.mem_flatMap]
  refine ⟨e, he, ?_⟩
  unfold Spec.primary at hp
  exact List.mem_of_mem_head? hp

theorem prims_lt {cfg : Cfg} {es : List (Nat × Nat × W)} {b : Nat}
    (h : ∀ e ∈ es, e.1 + 1 < b ∧ e.2.1 + 1 < b) : ∀ p ∈ prims cfg es, p.1 + 1 < b ∧ p.2.1 + 1 < b := by
  intro p hp
  have hp' := mem_prims hp
  unfold storedAll at hp'
  rw [List.mem_flatMap] at hp'
  obtain ⟨e, he, hs⟩ := hp'
  obtain ⟨q, _, h1, h2⟩ := mem_stored hs
  have := h e he
  omega

/-- Dimensions of the loaded COO. -/
theorem cooOf_dims {lw : Nat} (hlw : 0 < lw) {cfg : Cfg} {wgt : Bool} {es : List (Nat × Nat × W)}
    (hlab : ∀ e ∈ es, e.1 + 1 < 2 ^ lw ∧ e.2.1 + 1 < 2 ^ lw) :
    (cooOf lw cfg wgt es).nrows = Spec.maxOf ((prims cfg es).map (·.1)) + 1 ∧
    (cooOf lw cfg wgt es).ncols = Spec.maxOf ((prims cfg es).map (·.2.1)) + 1 := by
  have hb : 1 < 2 ^ lw := Nat.one_lt_two_pow (by omega)
  have hp := prims_lt (cfg := cfg) hlab
  have h1 : Spec.maxOf ((prims cfg es).map (·.1)) < 2 ^ lw - 1 := by
    apply maxOf_lt (by omega)
    intro a ha
    obtain ⟨p, hp', rfl⟩ := List.mem_map.mp ha
    have := hp p hp'; omega
  have h2 : Spec.maxOf ((prims cfg es).map (·.2.1)) < 2 ^ lw - 1 := by
    apply maxOf_lt (by omega)
    intro a ha
    obtain ⟨p, hp', rfl⟩ := List.mem_map.mp ha
    have := hp p hp'; omega
  unfold cooOf
  exact ⟨Nat.mod_eq_of_lt (by omega), Nat.mod_eq_of_lt (by omega)⟩

theorem cooOf_bound {lw : Nat} (hlw : 0 < lw) {cfg : Cfg} {wgt : Bool} {es : List (Nat × Nat × W)}
    (hlab : ∀ e ∈ es, e.1 + 1 < 2 ^ lw ∧ e.2.1 + 1 < 2 ^ lw) :
    (∀ a ∈ (cooOf lw cfg wgt es).x, a < (cooOf lw cfg wgt es).n) ∧
    (∀ a ∈ (cooOf lw cfg wgt es).y, a < (cooOf lw cfg wgt es).n) := by
  obtain ⟨h1, h2⟩ := cooOf_dims (cfg := cfg) (wgt := wgt) hlw hlab
  have hn : (cooOf lw cfg wgt es).n = max (cooOf lw cfg wgt es).nrows (cooOf lw cfg wgt es).ncols := rfl
  have key : ∀ s ∈ storedAll cfg es, s.1 < (cooOf lw cfg wgt es).n ∧ s.2.1 < (cooOf lw cfg wgt es).n := by
    intro s hs
    unfold storedAll at hs
    rw [List.mem_flatMap] at hs
    obtain ⟨e, he, hs⟩ := hs
    obtain ⟨p, hp, hsp, _⟩ := mem_stored hs
    have hpm : p ∈ prims cfg es := List.mem_filterMap.mpr ⟨e, he, hp⟩
    have k1 : p.1 ≤ Spec.maxOf ((prims cfg es).map (·.1)) := le_maxOf (List.mem_map.mpr ⟨p, hpm, rfl⟩)
    have k2 : p.2.1 ≤ Spec.maxOf ((prims cfg es).map (·.2.1)) := le_maxOf (List.mem_map.mpr ⟨p, hpm, rfl⟩)
    rw [hn, h1, h2]
    omega
  constructor
  · intro a ha
    rw [(cooOf_holds lw cfg wgt es).x] at ha
    obtain ⟨s, hs, rfl⟩ := List.mem_map.mp ha
    exact (key s hs).1
  · intro a ha
    rw [(cooOf_holds lw cfg wgt es).y] at ha
    obtain ⟨s, hs, rfl⟩ := List.mem_map.mp ha
    exact (key s hs).2

theorem prims_eq_stored {cfg : Cfg} (h : cfg.sym = false ∨ cfg.ut = true) (es : List (Nat × Nat × W)) :
    prims cfg es = storedAll cfg es := by
  unfold prims storedAll
  induction es with
  | nil => rfl
  | cons e es ih =>
    rw [List.filterMap_cons, List.flatMap_cons, ← ih]
    suffices hl : (Spec.stored cfg.sym cfg.ut cfg.sl e).length ≤ 1 by
      unfold Spec.primary
      match Spec.stored cfg.sym cfg.ut cfg.sl e, hl with
      | [], _ => rfl
      | [a], _ => rfl
    clear ih
    obtain ⟨x, y, w⟩ := e
    obtain ⟨sym, ut, sl⟩ := cfg
    simp only at h
    simp only [Spec.stored]
    rcases h with rfl | rfl
    · cases ut <;> cases sl <;> by_cases hxy : x = y <;> by_cases hle : x ≤ y <;> simp [hxy, hle]
    · cases sym <;> cases sl <;> by_cases hxy : x = y <;> by_cases hle : x ≤ y <;> simp [hxy, hle]

/-- **C10** `nrows()` is one more than the largest stored `x`, `ncols()` one more than the largest stored `y`
(`1` when nothing is stored), `n()` their maximum, and all stored labels are below `n()`; for every flag
combination except `symmetric` without `keep_upper_triangle_only`. -/
theorem C10_dimensions (μ : Mapping) (hpad : 0 < μ.pad) (lw ow T : Nat) (hT : 0 < T) (hlw : 0 < lw)
    (hok : Spec.EdgeListOk μ.bytes) (cfg : Cfg) (hcfg : cfg.sym = false ∨ cfg.ut = true)
    (hlab : ∀ e ∈ Spec.edges μ.bytes, e.1 + 1 < 2 ^ lw ∧ e.2 + 1 < 2 ^ lw)
    (hm : (storedAll cfg ((Spec.edges μ.bytes).map unw)).length < 2 ^ ow) (out : M (Coo Unit))
    (hrun : LoadEdgeList μ lw ow cfg wNone T out) :
    ∃ c, out = .ok c ∧ c.nrows = Spec.maxOf c.x + 1 ∧ c.ncols = Spec.maxOf c.y + 1 ∧
      c.n = max c.nrows c.ncols ∧ (∀ a ∈ c.x, a < c.n) ∧ (∀ a ∈ c.y, a < c.n) := by
  have hlab' : ∀ e ∈ (Spec.edges μ.bytes).map unw, e.1 + 1 < 2 ^ lw ∧ e.2.1 + 1 < 2 ^ lw := by
    intro e he
    obtain ⟨a, ha, rfl⟩ := List.mem_map.mp he
    exact hlab a ha
  have h := load_unweighted hpad hok (fun e he => by have := hlab e he; omega) cfg hT hm hrun
  obtain ⟨h1, h2⟩ := cooOf_dims (cfg := cfg) (wgt := false) hlw hlab'
  have hb := cooOf_bound (cfg := cfg) (wgt := false) hlw hlab'
  rw [prims_eq_stored hcfg] at h1 h2
  exact ⟨_, h, h1, h2, rfl, hb.1, hb.2⟩

/-- **C10**, with `symmetric` (upper triangle or not): the counts come from the entries as written in the
file; `n()` still bounds every stored label. -/
theorem C10_dimensions_symmetric (μ : Mapping) (hpad : 0 < μ.pad) (lw ow T : Nat) (hT : 0 < T) (hlw : 0 < lw)
    (hok : Spec.EdgeListOk μ.bytes)
    (hlab : ∀ e ∈ Spec.edges μ.bytes, e.1 + 1 < 2 ^ lw ∧ e.2 + 1 < 2 ^ lw)
    (hm : (storedAll { sym := true } ((Spec.edges μ.bytes).map unw)).length < 2 ^ ow) (out : M (Coo Unit))
    (hrun : LoadEdgeList μ lw ow { sym := true } wNone T out) :
    ∃ c, out = .ok c ∧ c.nrows = Spec.maxOf ((Spec.edges μ.bytes).map Prod.fst) + 1 ∧
      c.ncols = Spec.maxOf ((Spec.edges μ.bytes).map Prod.snd) + 1 ∧
      c.n = max c.nrows c.ncols ∧ (∀ a ∈ c.x, a < c.n) ∧ (∀ a ∈ c.y, a < c.n) := by
  have hlab' : ∀ e ∈ (Spec.edges μ.bytes).map unw, e.1 + 1 < 2 ^ lw ∧ e.2.1 + 1 < 2 ^ lw := by
    intro e he
    obtain ⟨a, ha, rfl⟩ := List.mem_map.mp he
    exact hlab a ha
  have h := load_unweighted hpad hok (fun e he => by have := hlab e he; omega) { sym := true } hT hm hrun
  obtain ⟨h1, h2⟩ := cooOf_dims (cfg := { sym := true }) (wgt := false) hlw hlab'
  have hb := cooOf_bound (cfg := { sym := true }) (wgt := false) hlw hlab'
  have hp : prims { sym := true } ((Spec.edges μ.bytes).map unw) = (Spec.edges μ.bytes).map unw := by
    unfold prims
    have : Spec.primary (W := Unit) true false false = some := by
      funext ⟨x, y, w⟩
      unfold Spec.primary Spec.stored
      by_cases hxy : x = y <;> simp [hxy]
    rw [show ({ sym := true } : Cfg).sym = true from rfl, show ({ sym := true } : Cfg).ut = false from rfl,
      show ({ sym := true } : Cfg).sl = false from rfl, this, List.filterMap_some]
  rw [hp, List.map_map] at h1 h2
  exact ⟨_, h, h1, h2, rfl, hb.1, hb.2⟩

/-- **C10 fails** with `symmetric`: the mirrored entry `(5, 1)` is stored in row 5, but `nrows()` is 2. -/
theorem C10_symmetric_rows_violated :
    ∃ (μ : Mapping) (c : Coo Unit), LoadEdgeList μ 32 64 { sym := true } wNone 1 (.ok c) ∧
      c.x = [1, 5] ∧ c.nrows = 2 := by
  refine ⟨⟨str "1 5\n", 8⟩, { x := [1, 5], y := [5, 1], w := [], n := 6, m := 2, nrows := 2, ncols := 6 }, ?_, rfl, rfl⟩
  unfold LoadEdgeList ReadEl
  have h : readElPlan ⟨str "1 5\n", 8⟩ 32 64 { sym := true } wNone 1 (fileReader ⟨str "1 5\n", 8⟩) =
      .ok { m := 2, threads := [[.setX 0 1, .setY 0 5, .setY 1 1, .setX 1 5]], mr := 1, mc := 5 } := by decide
  rw [h]
  exact ⟨⟨fun _ => 0, fun _ => 0, fun _ => ()⟩, _, interleave_flatten _, by decide⟩

example : 0 < exFile.pad ∧ Spec.EdgeListOk exFile.bytes ∧
    (∀ e ∈ Spec.edges exFile.bytes, e.1 + 1 < 2 ^ 16 ∧ e.2 + 1 < 2 ^ 16) ∧
    (storedAll { sym := true } ((Spec.edges exFile.bytes).map unw)).length < 2 ^ 8 := by
  refine ⟨by decide, exFile_ok, ?_, ?_⟩ <;> rw [exFile_edges] <;> decide

/-! ### C12, C13, C14, C15 -/

/-- **C12** With `remove_self_loops` (only) exactly the entries with `x ≠ y` are stored, in file order. -/
theorem C12_remove_self_loops (μ : Mapping) (hpad : 0 < μ.pad) (lw ow T : Nat) (hT : 0 < T)
    (hok : Spec.EdgeListOk μ.bytes)
    (hlab : ∀ e ∈ Spec.edges μ.bytes, e.1 < 2 ^ lw ∧ e.2 < 2 ^ lw)
    (hm : (Spec.edges μ.bytes).length < 2 ^ ow) (out : M (Coo Unit))
    (hrun : LoadEdgeList μ lw ow { sl := true } wNone T out) :
    ∃ c, out = .ok c ∧
      Holds c false (((Spec.edges μ.bytes).filter (fun e => e.1 ≠ e.2)).map unw) := by
  have hs : ∀ es : List (Nat × Nat), storedAll { sl := true } (es.map unw) = (es.filter (fun e => e.1 ≠ e.2)).map unw := by
    intro es
    unfold storedAll
    rw [List.flatMap_map, ← flatMap_ite_filter, List.map_flatMap]
    congr 1
    funext e
    by_cases h : e.1 = e.2 <;> simp [Spec.stored, unw, h]
  have hm' : (storedAll { sl := true } ((Spec.edges μ.bytes).map unw)).length < 2 ^ ow := by
    rw [hs, List.length_map]
    exact Nat.lt_of_le_of_lt (List.length_filter_le ..) hm
  have h := load_unweighted hpad hok hlab { sl := true } hT hm' hrun
  have hh := cooOf_holds lw { sl := true } false ((Spec.edges μ.bytes).map unw)
  rw [hs] at hh
  exact ⟨_, h, hh⟩

/-- **C13** With `keep_upper_triangle_only` (only) exactly the entries with `x ≤ y` are stored, in file order. -/
theorem C13_upper_triangle (μ : Mapping) (hpad : 0 < μ.pad) (lw ow T : Nat) (hT : 0 < T)
    (hok : Spec.EdgeListOk μ.bytes)
    (hlab : ∀ e ∈ Spec.edges μ.bytes, e.1 < 2 ^ lw ∧ e.2 < 2 ^ lw)
    (hm : (Spec.edges μ.bytes).length < 2 ^ ow) (out : M (Coo Unit))
    (hrun : LoadEdgeList μ lw ow { ut := true } wNone T out) :
    ∃ c, out = .ok c ∧
      Holds c false (((Spec.edges μ.bytes).filter (fun e => e.1 ≤ e.2)).map unw) := by
  have hs : ∀ es : List (Nat × Nat), storedAll { ut := true } (es.map unw) = (es.filter (fun e => e.1 ≤ e.2)).map unw := by
    intro es
    unfold storedAll
    rw [List.flatMap_map, ← flatMap_ite_filter, List.map_flatMap]
    congr 1
    funext e
    by_cases h : e.1 ≤ e.2 <;> simp [Spec.stored, unw, h]
  have hm' : (storedAll { ut := true } ((Spec.edges μ.bytes).map unw)).length < 2 ^ ow := by
    rw [hs, List.length_map]
    exact Nat.lt_of_le_of_lt (List.length_filter_le ..) hm
  have h := load_unweighted hpad hok hlab { ut := true } hT hm' hrun
  have hh := cooOf_holds lw { ut := true } false ((Spec.edges μ.bytes).map unw)
  rw [hs] at hh
  exact ⟨_, h, hh⟩

/-- Mirror of an entry. -/
def mirror (e : Nat × Nat × W) : Nat × Nat × W := (e.2.1, e.1, e.2.2)

/-- Under `symmetric` (no upper triangle) stored entries and their mirrors are equally frequent. -/
theorem storedAll_sym_count [DecidableEq W] (sl : Bool) (es : List (Nat × Nat × W)) (e : Nat × Nat × W) :
    (storedAll { sym := true, sl := sl } es).count e = (storedAll { sym := true, sl := sl } es).count (mirror e) := by
  induction es with
  | nil => rfl
  | cons a es ih =>
    have : storedAll { sym := true, sl := sl } (a :: es) =
        Spec.stored true false sl a ++ storedAll { sym := true, sl := sl } es := rfl
    rw [this, List.count_append, List.count_append, ih]
    congr 1
    obtain ⟨x, y, w⟩ := a
    obtain ⟨p, q, v⟩ := e
    unfold mirror
    simp only [Spec.stored]
    split
    · simp
    · split
      · rename_i h; subst h
        simp only [List.count_cons, List.count_nil, beq_iff_eq, Prod.mk.injEq]
        have : (x = p ∧ x = q ∧ w = v) = (x = q ∧ x = p ∧ w = v) := by
          apply propext; constructor <;> (rintro ⟨h1, h2, h3⟩; exact ⟨h2, h1, h3⟩)
        simp only [this]
      · simp only [List.count_cons, List.count_nil, beq_iff_eq, Prod.mk.injEq, Nat.zero_add]
        rw [Nat.add_comm]
        have h1 : (y = p ∧ x = q ∧ w = v) = (x = q ∧ y = p ∧ w = v) := by
          apply propext; constructor <;> (rintro ⟨h1, h2, h3⟩; exact ⟨h2, h1, h3⟩)
        have h2 : (y = q ∧ x = p ∧ w = v) = (x = p ∧ y = q ∧ w = v) := by
          apply propext; constructor <;> (rintro ⟨h1, h2, h3⟩; exact ⟨h2, h1, h3⟩)
        simp only [h1, h2]

/-- What `symmetric` stores, as a specification: an off-diagonal entry and its mirror, a loop once. -/
def symmetrize (es : List (Nat × Nat × W)) : List (Nat × Nat × W) :=
  es.flatMap (fun e => if e.1 = e.2.1 then [e] else [e, mirror e])

theorem storedAll_sym (es : List (Nat × Nat × W)) : storedAll { sym := true } es = symmetrize es := by
  unfold storedAll symmetrize
  have : Spec.stored (W := W) true false false = fun e => if e.1 = e.2.1 then [e] else [e, mirror e] := by
    funext ⟨x, y, w⟩
    simp [Spec.stored, mirror]
  exact congrArg (fun f => es.flatMap f) this

/-- **C14** With `symmetric` an off-diagonal entry is stored with its mirror, a loop once; so an entry and its
mirror occur equally often. -/
theorem C14_symmetric (μ : Mapping) (hpad : 0 < μ.pad) (lw ow T : Nat) (hT : 0 < T)
    (hok : Spec.EdgeListOk μ.bytes)
    (hlab : ∀ e ∈ Spec.edges μ.bytes, e.1 < 2 ^ lw ∧ e.2 < 2 ^ lw)
    (hm : (symmetrize ((Spec.edges μ.bytes).map unw)).length < 2 ^ ow) (out : M (Coo Unit))
    (hrun : LoadEdgeList μ lw ow { sym := true } wNone T out) :
    ∃ c, out = .ok c ∧ Holds c false (symmetrize ((Spec.edges μ.bytes).map unw)) ∧
      ∀ a b, (c.x.zip c.y).count (a, b) = (c.x.zip c.y).count (b, a) := by
  have h := load_unweighted hpad hok hlab { sym := true } hT (by rw [storedAll_sym]; exact hm) hrun
  have hh := cooOf_holds lw { sym := true } false ((Spec.edges μ.bytes).map unw)
  refine ⟨_, h, by rw [storedAll_sym] at hh; exact hh, ?_⟩
  intro a b
  rw [hh.x, hh.y]
  have hz : ∀ es : List (Nat × Nat × Unit), ∀ a b, ((es.map (fun e => e.1)).zip (es.map (fun e => e.2.1))).count (a, b) =
      es.count (a, b, ()) := by
    intro es a b
    induction es with
    | nil => rfl
    | cons e es ih =>
      obtain ⟨x, y, u⟩ := e
      simp only [List.map_cons, List.zip_cons_cons, List.count_cons, ih]
      congr 1
      simp
  rw [hz, hz]
  exact storedAll_sym_count false _ (a, b, ())

/-- **C15** With `symmetric` and `keep_upper_triangle_only` the entry `(min x y, max x y)` is stored for each
entry of the file. -/
theorem C15_symmetric_upper (μ : Mapping) (hpad : 0 < μ.pad) (lw ow T : Nat) (hT : 0 < T)
    (hok : Spec.EdgeListOk μ.bytes)
    (hlab : ∀ e ∈ Spec.edges μ.bytes, e.1 < 2 ^ lw ∧ e.2 < 2 ^ lw)
    (hm : (Spec.edges μ.bytes).length < 2 ^ ow) (out : M (Coo Unit))
    (hrun : LoadEdgeList μ lw ow { sym := true, ut := true } wNone T out) :
    ∃ c, out = .ok c ∧
      Holds c false (((Spec.edges μ.bytes).map (fun e => (min e.1 e.2, max e.1 e.2))).map unw) ∧
      -- the same entries as symmetrizing and then cutting off the lower triangle
      ((symmetrize ((Spec.edges μ.bytes).map unw)).filter (fun e => e.1 ≤ e.2.1)) =
        ((Spec.edges μ.bytes).map (fun e => (min e.1 e.2, max e.1 e.2))).map unw := by
  have hs : ∀ es : List (Nat × Nat), storedAll { sym := true, ut := true } (es.map unw) =
      (es.map (fun e => (min e.1 e.2, max e.1 e.2))).map unw := by
    intro es
    unfold storedAll
    induction es with
    | nil => rfl
    | cons e es ih =>
      simp only [List.map_cons, List.flatMap_cons, ih]
      simp [Spec.stored, unw]
  have h := load_unweighted hpad hok hlab { sym := true, ut := true } hT
    (by rw [hs, List.length_map, List.length_map]; exact hm) hrun
  have hh := cooOf_holds lw { sym := true, ut := true } false ((Spec.edges μ.bytes).map unw)
  rw [hs] at hh
  refine ⟨_, h, hh, ?_⟩
  generalize Spec.edges μ.bytes = es
  induction es with
  | nil => rfl
  | cons e es ih =>
    obtain ⟨x, y⟩ := e
    simp only [symmetrize, List.map_cons, List.flatMap_cons, List.filter_append] at ih ⊢
    rw [ih, ← List.singleton_append]
    rcases Nat.lt_trichotomy x y with h | h | h
    · rw [if_neg (show ¬ (unw (x, y)).1 = (unw (x, y)).2.1 from Nat.ne_of_lt h), Nat.min_eq_left (Nat.le_of_lt h),
        Nat.max_eq_right (Nat.le_of_lt h)]
      simp [unw, mirror, Nat.le_of_lt h, Nat.not_le_of_lt h]
    · subst h; simp [unw]
    · rw [if_neg (show ¬ (unw (x, y)).1 = (unw (x, y)).2.1 from Nat.ne_of_gt h), Nat.min_eq_right (Nat.le_of_lt h),
        Nat.max_eq_left (Nat.le_of_lt h)]
      simp [unw, mirror, Nat.le_of_lt h, Nat.not_le_of_lt h]

example : (((Spec.edges exFile.bytes).filter (fun e => e.1 ≠ e.2)).map unw) = [(1, 2, ()), (3, 4, ()), (2, 1, ())] ∧
    (((Spec.edges exFile.bytes).filter (fun e => e.1 ≤ e.2)).map unw) = [(1, 2, ()), (3, 4, ()), (5, 5, ())] ∧
    symmetrize ((Spec.edges exFile.bytes).map unw) =
      [(1, 2, ()), (2, 1, ()), (3, 4, ()), (4, 3, ()), (5, 5, ()), (2, 1, ()), (1, 2, ())] := by
  rw [exFile_edges]; decide

/-! ### C16 -/

/-- **C16** Weights stay with their entry: unsigned integer weights, no flags, `symmetric`, or `symmetric` with
`keep_upper_triangle_only`. -/
theorem C16_weights_unsigned (μ : Mapping) (hpad : 0 < μ.pad) (lw ow ww T : Nat) (hT : 0 < T)
    (hok : Spec.FileOk Spec.entryU μ.bytes)
    (hlab : ∀ e ∈ Spec.entries Spec.entryU μ.bytes, e.1 < 2 ^ lw ∧ e.2.1 < 2 ^ lw ∧ e.2.2 < 2 ^ ww)
    (cfg : Cfg) (hsl : cfg.sl = false) (hcfg : cfg.sym = true ∨ cfg.ut = false)
    (hm : (storedAll cfg (Spec.entries Spec.entryU μ.bytes)).length < 2 ^ ow) (out : M (Coo Nat))
    (hrun : LoadEdgeList μ lw ow cfg (wUint ww) T out) :
    ∃ c, out = .ok c ∧ Holds c true (storedAll cfg (Spec.entries Spec.entryU μ.bytes)) := by
  refine ⟨_, load_any hpad (format_uint lw ww) hok (fun e he => (hlab e he).2.2)
    (fun e he => ⟨(hlab e he).1, (hlab e he).2.1⟩) cfg hT (.inr ?_) hm hrun, cooOf_holds ..⟩
  intro ⟨x, y, w⟩ _
  obtain ⟨sym, ut, sl⟩ := cfg
  simp only at hsl hcfg; subst hsl
  simp only [storedC, Spec.stored]
  rcases hcfg with rfl | rfl
  · cases ut <;> simp <;> split <;> simp
  · cases sym <;> simp; split <;> simp

/-- **C16**, signed integer weights. -/
theorem C16_weights_signed (μ : Mapping) (hpad : 0 < μ.pad) (lw ow ww T : Nat) (hT : 0 < T)
    (hok : Spec.FileOk Spec.entryS μ.bytes)
    (hlab : ∀ e ∈ Spec.entries Spec.entryS μ.bytes, e.1 < 2 ^ lw ∧ e.2.1 < 2 ^ lw ∧ e.2.2.natAbs < 2 ^ (ww - 1))
    (cfg : Cfg) (hsl : cfg.sl = false) (hcfg : cfg.sym = true ∨ cfg.ut = false)
    (hm : (storedAll cfg (Spec.entries Spec.entryS μ.bytes)).length < 2 ^ ow) (out : M (Coo Int))
    (hrun : LoadEdgeList μ lw ow cfg (wSint ww) T out) :
    ∃ c, out = .ok c ∧ Holds c true (storedAll cfg (Spec.entries Spec.entryS μ.bytes)) := by
  refine ⟨_, load_any hpad (format_sint lw ww) hok (fun e he => (hlab e he).2.2)
    (fun e he => ⟨(hlab e he).1, (hlab e he).2.1⟩) cfg hT (.inr ?_) hm hrun, cooOf_holds ..⟩
  intro ⟨x, y, w⟩ _
  obtain ⟨sym, ut, sl⟩ := cfg
  simp only at hsl hcfg; subst hsl
  simp only [storedC, Spec.stored]
  rcases hcfg with rfl | rfl
  · cases ut <;> simp <;> split <;> simp
  · cases sym <;> simp; split <;> simp

/-- **C16**, floating point weights in any arithmetic `ops` (`evalLit ops` is the value `read_fp` gives to a
literal, see C66). -/
theorem C16_weights_float (μ : Mapping) (hpad : 0 < μ.pad) (lw ow T : Nat) (hT : 0 < T) (ops : FpOps W)
    (hok : Spec.FileOk (Spec.entryF (evalLit ops)) μ.bytes)
    (hlab : ∀ e ∈ Spec.entries (Spec.entryF (evalLit ops)) μ.bytes, e.1 < 2 ^ lw ∧ e.2.1 < 2 ^ lw)
    (cfg : Cfg) (hsl : cfg.sl = false) (hcfg : cfg.sym = true ∨ cfg.ut = false)
    (hm : (storedAll cfg (Spec.entries (Spec.entryF (evalLit ops)) μ.bytes)).length < 2 ^ ow) (out : M (Coo W))
    (hrun : LoadEdgeList μ lw ow cfg (wFp ops) T out) :
    ∃ c, out = .ok c ∧ Holds c true (storedAll cfg (Spec.entries (Spec.entryF (evalLit ops)) μ.bytes)) := by
  refine ⟨_, load_any hpad (format_fp lw ops) hok (fun e he => trivial) hlab cfg hT (.inr ?_) hm hrun, cooOf_holds ..⟩
  intro ⟨x, y, w⟩ _
  obtain ⟨sym, ut, sl⟩ := cfg
  simp only at hsl hcfg; subst hsl
  simp only [storedC, Spec.stored]
  rcases hcfg with rfl | rfl
  · cases ut <;> simp <;> split <;> simp
  · cases sym <;> simp; split <;> simp

/-- A weighted file, with signs. -/
def exWeighted : Mapping := ⟨str "%w 1 2 3\n1 2 -5\n3 3 +70 % 9\n\n0 4 12 extra\n", 100⟩

theorem exWeighted_ok : Spec.FileOk Spec.entryS exWeighted.bytes := ⟨by decide, by decide⟩
theorem exWeighted_entries : Spec.entries Spec.entryS exWeighted.bytes = [(1, 2, -5), (3, 3, 70), (0, 4, 12)] := by
  decide
example : Spec.FileOk Spec.entryU exWeighted.bytes ∧
    Spec.entries Spec.entryU exWeighted.bytes = [(1, 2, 5), (3, 3, 70), (0, 4, 12)] := ⟨⟨by decide, by decide⟩, by decide⟩
example : storedAll { sym := true } [(1, 2, (-5 : Int)), (3, 3, 70)] = [(1, 2, -5), (2, 1, -5), (3, 3, 70)] := by decide

/-- Mirroring every entry only permutes what `symmetric` stores. -/
theorem symmetrize_mirror (es : List (Nat × Nat × W)) : ((symmetrize es).map mirror).Perm (symmetrize es) := by
  induction es with
  | nil => exact .nil
  | cons e es ih =>
    have hc : symmetrize (e :: es) = (if e.1 = e.2.1 then [e] else [e, mirror e]) ++ symmetrize es := rfl
    rw [hc, List.map_append]
    refine List.Perm.append ?_ ih
    obtain ⟨x, y, w⟩ := e
    by_cases h : x = y
    · subst h; simp [mirror]
    · rw [if_neg h]; exact List.Perm.swap _ _ _

/-- **C14** (weights) With `symmetric` the mirror of an entry has its weight: unsigned, signed and floating point weights. -/
theorem C14_symmetric_unsigned (μ : Mapping) (hpad : 0 < μ.pad) (lw ow ww T : Nat) (hT : 0 < T)
    (hok : Spec.FileOk Spec.entryU μ.bytes)
    (hlab : ∀ e ∈ Spec.entries Spec.entryU μ.bytes, e.1 < 2 ^ lw ∧ e.2.1 < 2 ^ lw ∧ e.2.2 < 2 ^ ww)
    (hm : (symmetrize (Spec.entries Spec.entryU μ.bytes)).length < 2 ^ ow) (out : M (Coo Nat))
    (hrun : LoadEdgeList μ lw ow { sym := true } (wUint ww) T out) :
    ∃ c es, out = .ok c ∧ Holds c true es ∧ es = symmetrize (Spec.entries Spec.entryU μ.bytes) ∧ (es.map mirror).Perm es := by
  obtain ⟨c, hc, h⟩ := C16_weights_unsigned μ hpad lw ow ww T hT hok hlab { sym := true } rfl (.inl rfl) (by rw [storedAll_sym]; exact hm) out hrun
  exact ⟨c, _, hc, h, storedAll_sym _, by rw [storedAll_sym]; exact symmetrize_mirror _⟩

theorem C14_symmetric_signed (μ : Mapping) (hpad : 0 < μ.pad) (lw ow ww T : Nat) (hT : 0 < T)
    (hok : Spec.FileOk Spec.entryS μ.bytes)
    (hlab : ∀ e ∈ Spec.entries Spec.entryS μ.bytes, e.1 < 2 ^ lw ∧ e.2.1 < 2 ^ lw ∧ e.2.2.natAbs < 2 ^ (ww - 1))
    (hm : (symmetrize (Spec.entries Spec.entryS μ.bytes)).length < 2 ^ ow) (out : M (Coo Int))
    (hrun : LoadEdgeList μ lw ow { sym := true } (wSint ww) T out) :
    ∃ c es, out = .ok c ∧ Holds c true es ∧ es = symmetrize (Spec.entries Spec.entryS μ.bytes) ∧ (es.map mirror).Perm es := by
  obtain ⟨c, hc, h⟩ := C16_weights_signed μ hpad lw ow ww T hT hok hlab { sym := true } rfl (.inl rfl) (by rw [storedAll_sym]; exact hm) out hrun
  exact ⟨c, _, hc, h, storedAll_sym _, by rw [storedAll_sym]; exact symmetrize_mirror _⟩

theorem C14_symmetric_float (μ : Mapping) (hpad : 0 < μ.pad) (lw ow T : Nat) (hT : 0 < T) (ops : FpOps W)
    (hok : Spec.FileOk (Spec.entryF (evalLit ops)) μ.bytes)
    (hlab : ∀ e ∈ Spec.entries (Spec.entryF (evalLit ops)) μ.bytes, e.1 < 2 ^ lw ∧ e.2.1 < 2 ^ lw)
    (hm : (symmetrize (Spec.entries (Spec.entryF (evalLit ops)) μ.bytes)).length < 2 ^ ow) (out : M (Coo W))
    (hrun : LoadEdgeList μ lw ow { sym := true } (wFp ops) T out) :
    ∃ c es, out = .ok c ∧ Holds c true es ∧ es = symmetrize (Spec.entries (Spec.entryF (evalLit ops)) μ.bytes) ∧ (es.map mirror).Perm es := by
  obtain ⟨c, hc, h⟩ := C16_weights_float μ hpad lw ow T hT ops hok hlab { sym := true } rfl (.inl rfl) (by rw [storedAll_sym]; exact hm) out hrun
  exact ⟨c, _, hc, h, storedAll_sym _, by rw [storedAll_sym]; exact symmetrize_mirror _⟩

example : symmetrize (Spec.entries Spec.entryS exWeighted.bytes) = [(1, 2, -5), (2, 1, -5), (3, 3, 70), (0, 4, 12), (4, 0, 12)] := by
  rw [exWeighted_entries]; decide

/-! ### C20 -/

/-- **C20** (aliasing) Labels are stored modulo `2^lw`: without the bound on the labels the loaded COO holds the
reduced labels. -/
theorem C20_labels_alias (μ : Mapping) (hpad : 0 < μ.pad) (lw ow T : Nat) (hT : 0 < T)
    (hok : Spec.EdgeListOk μ.bytes) (hm : (Spec.edges μ.bytes).length < 2 ^ ow) (out : M (Coo Unit))
    (hrun : LoadEdgeList μ lw ow {} wNone T out) :
    ∃ c, out = .ok c ∧ c.x = (Spec.edges μ.bytes).map (fun e => e.1 % 2 ^ lw) ∧
      c.y = (Spec.edges μ.bytes).map (fun e => e.2 % 2 ^ lw) ∧
      c.nrows = (Spec.maxOf c.x + 1) % 2 ^ lw ∧ c.ncols = (Spec.maxOf c.y + 1) % 2 ^ lw := by
  have hm' : total {} ((Spec.entries Spec.entry0 μ.bytes).map (modL lw)) < 2 ^ ow := by
    have : total {} ((Spec.entries Spec.entry0 μ.bytes).map (modL lw)) =
      (storedAll {} ((Spec.entries Spec.entry0 μ.bytes).map (modL lw))).length := rfl
    rw [this, storedAll_plain, entries_edges]; simpa using hm
  have h := readEl_file hpad (format_none lw) (fileOk_edges hok) (fun _ _ => trivial) {} hT (.inl wNone_trivial) hm' hrun
  have hh := cooOf_holds lw {} wNone.wgt ((Spec.entries Spec.entry0 μ.bytes).map (modL lw))
  rw [storedAll_plain] at hh
  refine ⟨_, h, ?_, ?_, ?_, ?_⟩
  · rw [hh.x, entries_edges, List.map_map, List.map_map]; rfl
  · rw [hh.y, entries_edges, List.map_map, List.map_map]; rfl
  · rw [hh.x]
    unfold cooOf
    simp only [prims_eq_stored (cfg := {}) (.inl rfl), storedAll_plain]
  · rw [hh.y]
    unfold cooOf
    simp only [prims_eq_stored (cfg := {}) (.inl rfl), storedAll_plain]

/-- **C20** (room for the count) With every label at most `2^lw - 2` labels and counts are exact. -/
theorem C20_labels_exact (μ : Mapping) (hpad : 0 < μ.pad) (lw ow T : Nat) (hT : 0 < T) (hlw : 0 < lw)
    (hok : Spec.EdgeListOk μ.bytes)
    (hlab : ∀ e ∈ Spec.edges μ.bytes, e.1 ≤ 2 ^ lw - 2 ∧ e.2 ≤ 2 ^ lw - 2)
    (hm : (Spec.edges μ.bytes).length < 2 ^ ow) (out : M (Coo Unit))
    (hrun : LoadEdgeList μ lw ow {} wNone T out) :
    ∃ c, out = .ok c ∧ c.x = (Spec.edges μ.bytes).map Prod.fst ∧ c.y = (Spec.edges μ.bytes).map Prod.snd ∧
      c.nrows = Spec.maxOf c.x + 1 ∧ c.ncols = Spec.maxOf c.y + 1 := by
  have hb : 1 < 2 ^ lw := Nat.one_lt_two_pow (by omega)
  obtain ⟨c, hc, hx, hy, _⟩ := C08_edge_list_entries μ hpad lw ow T hT hok
    (fun e he => by have := hlab e he; omega) hm out hrun
  obtain ⟨c', hc', h1, h2, _⟩ := C10_dimensions μ hpad lw ow T hT hlw hok {} (.inl rfl)
    (fun e he => by have := hlab e he; omega) (by rw [storedAll_plain]; simpa using hm) out hrun
  rw [hc] at hc'; injection hc' with hc'; subst hc'
  exact ⟨c, hc, hx, hy, h1, h2⟩

/-- **C20** (the boundary) If the largest `x` is `2^lw - 1`, `nrows()` wraps to `0`. -/
theorem C20_count_wraps (μ : Mapping) (hpad : 0 < μ.pad) (lw ow T : Nat) (hT : 0 < T)
    (hok : Spec.EdgeListOk μ.bytes)
    (hmax : Spec.maxOf ((Spec.edges μ.bytes).map Prod.fst) = 2 ^ lw - 1)
    (hm : (Spec.edges μ.bytes).length < 2 ^ ow) (out : M (Coo Unit))
    (hrun : LoadEdgeList μ lw ow {} wNone T out) : ∃ c, out = .ok c ∧ c.nrows = 0 := by
  obtain ⟨c, hc, hx, _, h1, _⟩ := C20_labels_alias μ hpad lw ow T hT hok hm out hrun
  refine ⟨c, hc, ?_⟩
  have hpos : 0 < 2 ^ lw := Nat.two_pow_pos lw
  have hxx : c.x = (Spec.edges μ.bytes).map Prod.fst := by
    rw [hx]
    apply List.map_congr_left
    intro e he
    have := le_maxOf (List.mem_map.mpr ⟨e, he, rfl⟩ : e.1 ∈ (Spec.edges μ.bytes).map Prod.fst)
    exact Nat.mod_eq_of_lt (by omega)
  rw [h1, hxx, hmax, Nat.sub_add_cancel hpos, Nat.mod_self]

example : Spec.EdgeListOk (str "255 1\n") ∧ Spec.maxOf ((Spec.edges (str "255 1\n")).map Prod.fst) = 2 ^ 8 - 1 := by
  refine ⟨⟨?_, by decide⟩, by decide⟩
  have : ∀ l ∈ Spec.lines (str "255 1\n"), Spec.ints l = [] ∨ (Spec.edge l).isSome := by decide
  intro l hl
  rcases this l hl with h | h
  · exact .inl h
  · exact .inr (Option.isSome_iff_exists.mp h)

end Pigo
