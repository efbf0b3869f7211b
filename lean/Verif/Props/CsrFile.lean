import Verif.Spec.GraphText
import Verif.Props.Graph
import Verif.Props.Binary

/-!
# From an edge list file to a CSR

C77.  `readCsr P μ fn 0 .auto` is the constructor `CSR(fn)` (also of `BaseGraph`), with the type sizes, thread count
and weight type of `P`.
-/

namespace Pigo

variable {W : Type}

/-- The detection takes a plain edge file for an edge list. -/
theorem plain_usedType {μ : Mapping} {fn : List Byte} (h : Spec.PlainEdgeFile μ.bytes fn) :
    usedType μ fn 0 .auto = .ok .edgeList := by
  rw [usedType, if_pos rfl, C45_by_name _ _ _ (fun hh => h.magic (by simpa using hh.1)), if_neg h.mtx, if_neg h.graph]

/-- The COO read from a plain edge file. -/
theorem readCooFmt_plain (P : Params Unit) (hwk : P.wk = wNone) (hT : 0 < P.T) (cfg : Cfg) (μ : Mapping) (hpad : 0 < μ.pad)
    (fn : List Byte) (h : Spec.PlainEdgeFile μ.bytes fn)
    (hlab : ∀ e ∈ Spec.edges μ.bytes, e.1 < 2 ^ (8 * P.lb) ∧ e.2 < 2 ^ (8 * P.lb))
    (hm : (storedAll cfg ((Spec.edges μ.bytes).map unw)).length < 2 ^ (8 * P.ob)) :
    (readCooFmt P cfg μ 0 .edgeList).All (fun p => p = (cooOf (8 * P.lb) cfg false ((Spec.edges μ.bytes).map unw), 0)) := by
  unfold readCooFmt
  rw [if_neg (by decide), if_pos rfl]
  refine R.All.bind (P := fun c => c = cooOf (8 * P.lb) cfg false ((Spec.edges μ.bytes).map unw)) ?_
    (fun c hc => R.All.pure (by rw [hc]))
  intro out hout
  have hrun : LoadEdgeList μ (8 * P.lb) (8 * P.ob) cfg wNone P.T out := by
    rw [← hwk]; exact hout
  exact ⟨_, load_unweighted hpad h.ok hlab cfg hT hm hrun, rfl⟩

/-- `COO(fn)` on a plain edge file. -/
theorem readCoo_plain (P : Params Unit) (hwk : P.wk = wNone) (hT : 0 < P.T) (cfg : Cfg) (μ : Mapping) (hpad : 0 < μ.pad)
    (fn : List Byte) (h : Spec.PlainEdgeFile μ.bytes fn)
    (hlab : ∀ e ∈ Spec.edges μ.bytes, e.1 < 2 ^ (8 * P.lb) ∧ e.2 < 2 ^ (8 * P.lb))
    (hm : (storedAll cfg ((Spec.edges μ.bytes).map unw)).length < 2 ^ (8 * P.ob)) :
    (readCoo P cfg μ fn 0 .auto).All (fun c => c = cooOf (8 * P.lb) cfg false ((Spec.edges μ.bytes).map unw)) := by
  unfold readCoo
  refine R.All.bind (P := fun t => t = FileType.edgeList) (R.All.lift (a := FileType.edgeList) (plain_usedType h) rfl) ?_
  rintro t rfl
  rw [if_pos (by decide)]
  refine R.All.bind (readCooFmt_plain P hwk hT cfg μ hpad fn h hlab hm) (fun p hp => R.All.pure (by rw [hp]))

theorem maxLabel_eq (es : List (Nat × Nat)) :
    Spec.maxLabel es = max (Spec.maxOf (es.map Prod.fst)) (Spec.maxOf (es.map Prod.snd)) := by
  unfold Spec.maxLabel
  induction es with
  | nil => rfl
  | cons e es ih =>
    rw [List.flatMap_cons, maxOf_append, ih, List.map_cons, List.map_cons, maxOf_cons, maxOf_cons, maxOf_cons, maxOf_cons]
    have : Spec.maxOf [] = 0 := rfl
    omega

theorem le_maxLabel {es : List (Nat × Nat)} {e : Nat × Nat} (h : e ∈ es) : e.1 ≤ Spec.maxLabel es ∧ e.2 ≤ Spec.maxLabel es := by
  have h1 := le_maxOf (List.mem_map_of_mem (f := Prod.fst) h)
  have h2 := le_maxOf (List.mem_map_of_mem (f := Prod.snd) h)
  rw [maxLabel_eq]; omega

/-- The vertex count of the COO without flags. -/
theorem cooOf_n {lw : Nat} (hlw : 0 < lw) {es : List (Nat × Nat)} (hmax : Spec.maxLabel es + 1 < 2 ^ lw) :
    (cooOf lw {} false (es.map unw)).n = Spec.maxLabel es + 1 := by
  have hlab : ∀ e ∈ es.map unw, e.1 + 1 < 2 ^ lw ∧ e.2.1 + 1 < 2 ^ lw := by
    intro e he
    obtain ⟨a, ha, rfl⟩ := List.mem_map.mp he
    have := le_maxLabel ha
    simp only [unw]; omega
  obtain ⟨h1, h2⟩ := cooOf_dims (cfg := {}) (wgt := false) hlw hlab
  have hn : (cooOf lw {} false (es.map unw)).n = max (cooOf lw {} false (es.map unw)).nrows (cooOf lw {} false (es.map unw)).ncols := rfl
  rw [hn, h1, h2, prims_eq_stored (.inl rfl), storedAll_plain, List.map_map, List.map_map, maxLabel_eq]
  have e1 : es.map ((fun e : Nat × Nat × Unit => e.1) ∘ unw) = es.map Prod.fst := rfl
  have e2 : es.map ((fun e : Nat × Nat × Unit => e.2.1) ∘ unw) = es.map Prod.snd := rfl
  rw [e1, e2]; omega

/-- C77: `CSR(fn)` of an edge list file, in every execution: the vertices are `0, …, largest label`, the rows hold the edges
of the file with their multiplicity, the arrays are valid.  The largest label leaves room for the number of offsets. -/
theorem C77_csr_file_partial (P : Params Unit) (hwk : P.wk = wNone) (hT : 0 < P.T) (hlb : 0 < P.lb) (μ : Mapping) (hpad : 0 < μ.pad)
    (fn : List Byte) (h : Spec.PlainEdgeFile μ.bytes fn) (hmax : Spec.maxLabel (Spec.edges μ.bytes) + 1 < 2 ^ (8 * P.lb))
    (hfit : Spec.OffsetsFit (8 * P.lb) (Spec.maxLabel (Spec.edges μ.bytes) + 1))
    (hm : (Spec.edges μ.bytes).length < 2 ^ (8 * P.ob)) :
    (readCsr P μ fn 0 .auto).All (fun r => Spec.ValidCsr r.1 false ∧ r.1.n = Spec.maxLabel (Spec.edges μ.bytes) + 1 ∧
      r.1.m = (Spec.edges μ.bytes).length ∧ ∀ v u, v < r.1.n → (Spec.row r.1 v).count u = (Spec.edges μ.bytes).count (v, u)) := by
  have hlab : ∀ e ∈ Spec.edges μ.bytes, e.1 < 2 ^ (8 * P.lb) ∧ e.2 < 2 ^ (8 * P.lb) := by
    intro e he
    have := le_maxLabel he
    omega
  unfold readCsr
  refine R.All.bind (P := fun t => t = FileType.edgeList) (R.All.lift (a := FileType.edgeList) (plain_usedType h) rfl) ?_
  rintro t rfl
  rw [if_pos (by decide)]
  refine R.All.bind (readCooFmt_plain P hwk hT {} μ hpad fn h hlab (by rw [storedAll_plain]; simpa using hm)) ?_
  rintro _ rfl
  have hn := cooOf_n (lw := 8 * P.lb) (by omega) hmax
  have hh := cooOf_holds (8 * P.lb) {} false ((Spec.edges μ.bytes).map unw)
  rw [storedAll_plain] at hh
  generalize cooOf (8 * P.lb) {} false ((Spec.edges μ.bytes).map unw) = c at hn hh
  have hcm : c.m = (Spec.edges μ.bytes).length := by rw [hh.m, List.length_map]
  have hw : P.wk.wgt = false := by rw [hwk]; rfl
  rw [hw]
  refine R.All.bind (convertCoo_all (lw := 8 * P.lb) (ow := 8 * P.ob) hT hh ?_ (by rw [hcm]; exact hm) (by rw [hn]; exact hfit))
    (fun r hr => R.All.pure ?_)
  · intro e he
    obtain ⟨a, ha, rfl⟩ := List.mem_map.mp he
    have := le_maxLabel ha
    rw [hn]; simp only [unw]; omega
  · obtain ⟨h1, h2, h3, es', h4, _, h5⟩ := hr
    have hrn : r.n = c.n := by rw [h5.n]; simp [groupRows]
    refine ⟨h5.valid, by rw [hrn, hn], by rw [h1, hcm], ?_⟩
    intro v u hv
    rw [fromEntries_count (n := c.n) (c := c) ⟨hrn, h1, h2, h3, es', h4, h5⟩ (by rw [← hrn]; exact hv), fun_eq_countP]

theorem run_store_nil {α : Type} : ∀ (l : List (Nat × α)), l ≠ [] → runActs storeAct l ([] : List α) = .error .oob
  | [], h => absurd rfl h
  | a :: l, _ => by rw [runActs, storeAct, store, if_neg (by simp)]; rfl

/-- C77: with a label type of 32 or more bits, converting a COO with the largest possible `n` to a CSR stores outside of the
offsets array in every execution: `n_+1` wraps to 0 and no offsets are allocated. -/
theorem C77_largest_n_violated (lw ow T : Nat) (hT : 0 < T) (hlw : 32 ≤ lw) (wgt : Bool) (c : Coo W) (es : List (Nat × Nat × W))
    (hc : Holds c wgt es) (hlab : ∀ e ∈ es, e.1 < c.n) (hm : c.m < 2 ^ ow) (hn : c.n = 2 ^ lw - 1) (out : M (Csr W)) :
    (convertCoo lw ow T wgt c).Out out → out = .error .oob := by
  have hxe : ∀ e, e < c.m → c.x[e]? = some ((es[e]?.map (fun a => a.1)).getD 0) := by
    intro e he
    rw [hc.m] at he
    simp [hc.x, he]
  have hxn : ∀ e, e < c.m → (es[e]?.map (fun a => a.1)).getD 0 < c.n := by
    intro e he
    rw [hc.m] at he
    simp only [List.getElem?_eq_getElem he, Option.map_some, Option.getD_some]
    exact hlab _ (List.getElem_mem he)
  have hz : plusOne lw c.n = 0 := by
    have : 0 < 2 ^ lw := Nat.two_pow_pos lw
    rw [plusOne, if_neg (by omega), hn, Nat.sub_add_cancel this, Nat.mod_self]
  rintro ⟨_, ⟨j, _, rfl⟩, o1, ho1, h⟩
  obtain ⟨p, rfl, _⟩ := countDegrees_all (ow := ow) hT hxe hxn hm o1 ho1
  obtain ⟨o2, ⟨sched, hs, rfl⟩, h⟩ := h
  have hne : sched ≠ [] := by
    intro h0
    have := hs.perm.length_eq
    rw [h0] at this
    simp [offsetThreads] at this
  rw [hz, show alloc j.offsets 0 = [] from rfl, run_store_nil _ hne] at h
  exact h

/-- C77: every edge list file whose largest label is the largest one a COO can hold (see C20) is loaded by `COO(fn)`, but
`CSR(fn)` stores outside of its arrays, for label types of 4 and more bytes. -/
theorem C77_largest_label_violated (P : Params Unit) (hwk : P.wk = wNone) (hT : 0 < P.T) (hlb : 4 ≤ P.lb) (μ : Mapping)
    (hpad : 0 < μ.pad) (fn : List Byte) (h : Spec.PlainEdgeFile μ.bytes fn)
    (hmax : Spec.maxLabel (Spec.edges μ.bytes) = 2 ^ (8 * P.lb) - 2) (hm : (Spec.edges μ.bytes).length < 2 ^ (8 * P.ob)) :
    (readCoo P {} μ fn 0 .auto).All (fun c => Holds c false ((Spec.edges μ.bytes).map unw) ∧
      c.n = Spec.maxLabel (Spec.edges μ.bytes) + 1) ∧
    ∀ out, (readCsr P μ fn 0 .auto).Out out → out = .error .oob := by
  have hbig : 2 ^ 32 ≤ 2 ^ (8 * P.lb) := Nat.pow_le_pow_right (by omega) (by omega)
  have hlab : ∀ e ∈ Spec.edges μ.bytes, e.1 < 2 ^ (8 * P.lb) ∧ e.2 < 2 ^ (8 * P.lb) := by
    intro e he
    have := le_maxLabel he
    omega
  have hn := cooOf_n (lw := 8 * P.lb) (es := Spec.edges μ.bytes) (by omega) (by omega)
  have hh := cooOf_holds (8 * P.lb) {} false ((Spec.edges μ.bytes).map unw)
  rw [storedAll_plain] at hh
  refine ⟨(readCoo_plain P hwk hT {} μ hpad fn h hlab (by rw [storedAll_plain]; simpa using hm)).mono
    (fun c hc => by rw [hc]; exact ⟨hh, hn⟩), ?_⟩
  rintro out ⟨o1, rfl, hk⟩
  rw [plain_usedType h] at hk
  simp only at hk
  rw [if_pos (by decide)] at hk
  obtain ⟨o2, ho2, hk⟩ := hk
  obtain ⟨p, rfl, rfl⟩ := readCooFmt_plain P hwk hT {} μ hpad fn h hlab (by rw [storedAll_plain]; simpa using hm) o2 ho2
  obtain ⟨o3, ho3, hk⟩ := hk
  have hw : P.wk.wgt = false := by rw [hwk]; rfl
  rw [hw] at ho3
  have := C77_largest_n_violated (8 * P.lb) (8 * P.ob) P.T hT (by omega) false _ _ hh (by
    intro e he
    obtain ⟨a, ha, rfl⟩ := List.mem_map.mp he
    have := le_maxLabel ha
    rw [hn]; simp only [unw]; omega) (by rw [hh.m, List.length_map]; exact hm) (by rw [hn]; omega) o3 ho3
  subst this
  exact hk

/-- A file whose largest label is the largest one for 32-bit labels. -/
def bigFile : Mapping := ⟨str "7 0\n0 4294967294\n", 3⟩

theorem bigFile_plain : Spec.PlainEdgeFile bigFile.bytes (str "g.txt") := by
  refine ⟨⟨?_, by decide⟩, by decide, by decide, by decide⟩
  have : ∀ l ∈ Spec.lines bigFile.bytes, Spec.ints l = [] ∨ (Spec.edge l).isSome := by decide
  intro l hl
  rcases this l hl with h | h
  · exact .inl h
  · exact .inr (Option.isSome_iff_exists.mp h)

theorem bigFile_edges : Spec.edges bigFile.bytes = [(7, 0), (0, 4294967294)] := by decide

/-- `bigFile` meets the hypotheses of `C77_largest_label_violated`. -/
example : 0 < bigFile.pad ∧ Spec.PlainEdgeFile bigFile.bytes (str "g.txt") ∧
    Spec.maxLabel (Spec.edges bigFile.bytes) = 2 ^ (8 * 4) - 2 ∧ (Spec.edges bigFile.bytes).length < 2 ^ (8 * 4) := by
  refine ⟨by decide, bigFile_plain, ?_, ?_⟩ <;> rw [bigFile_edges] <;> decide

theorem exFile_plain : Spec.PlainEdgeFile exFile.bytes (str "g.txt") :=
  ⟨exFile_ok, by decide, by decide, by decide⟩

/-- `exFile` (comments, blank lines, extra columns) meets the hypotheses of `C77_csr_file_partial`. -/
example : 0 < exFile.pad ∧ Spec.PlainEdgeFile exFile.bytes (str "g.txt") ∧
    Spec.maxLabel (Spec.edges exFile.bytes) + 1 < 2 ^ (8 * 4) ∧
    Spec.OffsetsFit (8 * 4) (Spec.maxLabel (Spec.edges exFile.bytes) + 1) ∧ (Spec.edges exFile.bytes).length < 2 ^ (8 * 4) := by
  refine ⟨by decide, exFile_plain, ?_, .inr ?_, ?_⟩ <;> rw [exFile_edges] <;> decide

end Pigo
