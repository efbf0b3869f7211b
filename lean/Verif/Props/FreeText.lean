import Verif.Props.MatrixMarket

/-!
# Weights among other text, and weighted symmetric Matrix Market files (C16, C23)
-/

namespace Pigo

variable {W : Type}

/-! ### C16 -/

theorem storedC_ne {cfg : Cfg} (hsl : cfg.sl = false) (hcfg : cfg.sym = true ∨ cfg.ut = false) (e : Nat × Nat × W) :
    storedC cfg e ≠ [] := by
  obtain ⟨x, y, w⟩ := e
  obtain ⟨sym, ut, sl⟩ := cfg
  simp only at hsl hcfg; subst hsl
  simp only [storedC, Spec.stored]
  rcases hcfg with rfl | rfl
  · cases ut <;> simp <;> split <;> simp
  · cases sym <;> simp; split <;> simp

/-- **C16**, signed integer weights with other text between the labels and the weight. -/
theorem C16_weights_signed_free_text (μ : Mapping) (hpad : 0 < μ.pad) (lw ow ww T : Nat) (hT : 0 < T)
    (hok : Spec.FileOk Spec.entryInS μ.bytes)
    (hlab : ∀ e ∈ Spec.entries Spec.entryInS μ.bytes, e.1 < 2 ^ lw ∧ e.2.1 < 2 ^ lw ∧ e.2.2.natAbs < 2 ^ (ww - 1))
    (cfg : Cfg) (hsl : cfg.sl = false) (hcfg : cfg.sym = true ∨ cfg.ut = false)
    (hm : (storedAll cfg (Spec.entries Spec.entryInS μ.bytes)).length < 2 ^ ow) (out : M (Coo Int))
    (hrun : LoadEdgeList μ lw ow cfg (wSint ww) T out) :
    ∃ c, out = .ok c ∧ Holds c true (storedAll cfg (Spec.entries Spec.entryInS μ.bytes)) :=
  ⟨_, load_any hpad (format_sint_in lw ww) hok (fun e he => (hlab e he).2.2)
    (fun e he => ⟨(hlab e he).1, (hlab e he).2.1⟩) cfg hT (.inr fun e _ => storedC_ne hsl hcfg e) hm hrun, cooOf_holds ..⟩

/-- **C16**, floating point weights with other text between the labels and the weight. -/
theorem C16_weights_float_free_text (μ : Mapping) (hpad : 0 < μ.pad) (lw ow T : Nat) (hT : 0 < T) (ops : FpOps W)
    (hok : Spec.FileOk (Spec.entryInF (evalLit ops)) μ.bytes)
    (hlab : ∀ e ∈ Spec.entries (Spec.entryInF (evalLit ops)) μ.bytes, e.1 < 2 ^ lw ∧ e.2.1 < 2 ^ lw)
    (cfg : Cfg) (hsl : cfg.sl = false) (hcfg : cfg.sym = true ∨ cfg.ut = false)
    (hm : (storedAll cfg (Spec.entries (Spec.entryInF (evalLit ops)) μ.bytes)).length < 2 ^ ow) (out : M (Coo W))
    (hrun : LoadEdgeList μ lw ow cfg (wFp ops) T out) :
    ∃ c, out = .ok c ∧ Holds c true (storedAll cfg (Spec.entries (Spec.entryInF (evalLit ops)) μ.bytes)) :=
  ⟨_, load_any hpad (format_fp_in lw ops) hok (fun e he => trivial) hlab cfg hT
    (.inr fun e _ => storedC_ne hsl hcfg e) hm hrun, cooOf_holds ..⟩

/-- A weighted file with words, brackets and names of units around the numbers. -/
def exFree : Mapping := ⟨str "node 1 -> 2 (cost: -5 euro)\n% 7 8 9\n4 2 asdf        \\ 3\n[0,4] +12 extra 9\n", 100⟩

theorem exFree_ok : Spec.FileOk Spec.entryInS exFree.bytes := ⟨by decide, by decide⟩
theorem exFree_entries : Spec.entries Spec.entryInS exFree.bytes = [(1, 2, -5), (4, 2, 3), (0, 4, 12)] := by decide

example (T : Nat) (hT : 0 < T) (out : M (Coo Int)) (hrun : LoadEdgeList exFree 32 64 {} (wSint 32) T out) :
    ∃ c, out = .ok c ∧ c.x = [1, 4, 0] ∧ c.y = [2, 2, 4] ∧ c.w = [-5, 3, 12] := by
  obtain ⟨c, hc, hh⟩ := C16_weights_signed_free_text exFree (by decide) 32 64 32 T hT exFree_ok
    (by rw [exFree_entries]; decide) {} rfl (.inr rfl) (by rw [exFree_entries]; decide) out hrun
  rw [exFree_entries] at hh
  exact ⟨c, hc, hh.x, hh.y, hh.w rfl⟩

/-- The character that starts the weight is not taken from the labels: a sign right after the second label is passed over, so
`signedIn` gives that line no weight. -/
example : Spec.entryInS (str "1 2-5") = none ∧ Spec.entryInS (str "1 2 -5") = some (1, 2, -5) ∧
    Spec.entryInS (str "1 2 - 5") = none ∧ Spec.entryInS (str "1 2 # -5") = none := by decide

/-! ### C23, weights -/

/-- **C23**, with `symmetric` (and without the other flags) a consistent file of any weight kind loads: every entry followed by
its mirror, with its weight; the dimensions are the declared ones. -/
theorem C23_symmetric_weighted_partial (μ : Mapping) (hpad : 0 < μ.pad) (lw ow T : Nat) (hT : 0 < T) {R C N : Nat}
    {body : List (List Byte)} (h : Spec.MmFile μ.bytes R C N body) {wk : WKind W}
    {entry : List Byte → Option (Nat × Nat × W)} {wp : Nat × Nat × W → Prop} (hf : Format wk entry wp)
    (hok : Spec.BodyOk entry body) (hwp : ∀ en ∈ Spec.entriesOf entry body, wp en)
    (hc : MmConsistent lw ow R C N (Spec.entriesOf entry body)) (hfit : 4 * N < 2 ^ ow) (out : M (Coo W))
    (hrun : LoadMm μ lw ow { sym := true } wk T out) :
    ∃ c, out = .ok c ∧ Holds c wk.wgt (storedAll { sym := true } (Spec.entriesOf entry body)) ∧ c.nrows = R + 1 ∧
      c.ncols = C + 1 ∧ c.n = max (R + 1) (C + 1) := by
  have hlen : ∀ es : List (Nat × Nat × W), es.length ≤ (storedAll { sym := true } es).length ∧
      (storedAll { sym := true } es).length ≤ 2 * es.length := by
    intro es
    induction es with
    | nil => simp [storedAll]
    | cons e es ih =>
      have h1 : storedAll { sym := true } (e :: es) = Spec.stored true false false e ++ storedAll { sym := true } es := rfl
      have h2 : 1 ≤ (Spec.stored true false false e).length ∧ (Spec.stored true false false e).length ≤ 2 := by
        obtain ⟨x, y, w⟩ := e
        simp only [Spec.stored, Bool.false_eq_true, false_and, if_false]; split <;> simp
      rw [h1, List.length_append, List.length_cons]; omega
  have hle := hlen (Spec.entriesOf entry body)
  rw [hc.count] at hle
  have hb : ∀ p ∈ prims { sym := true } (Spec.entriesOf entry body), p ∈ Spec.entriesOf entry body := by
    intro p hp
    unfold prims at hp
    rw [List.mem_filterMap] at hp
    obtain ⟨⟨x, y, w⟩, he, hp⟩ := hp
    simp only [Spec.primary, Spec.stored, Bool.false_eq_true, false_and, if_false] at hp
    split at hp <;> simp at hp <;> subst hp <;> exact he
  have hres := loadMm_result hpad hT h hf hok hwp { sym := true } hc.lab (fun p hp => hc.rows p (hb p hp))
    (fun p hp => hc.cols p (hb p hp)) hc.fitR hc.fitC hc.fitN (.inr fun e _ => storedC_ne rfl (.inl rfl) e) (by omega) (fun _ => by omega) hrun
  exact hres.2 (by unfold mmBad; rw [if_pos rfl]; omega)

/-- **C23 fails** for files that are not square: with `symmetric`, the mirror of an entry whose row is larger than the declared
number of columns is stored although its column is not below `ncols()`. -/
theorem C23_symmetric_columns_violated (μ : Mapping) (hpad : 0 < μ.pad) (lw ow T : Nat) (hT : 0 < T) {R C N : Nat}
    {body : List (List Byte)} (h : Spec.MmFile μ.bytes R C N body) {wk : WKind W}
    {entry : List Byte → Option (Nat × Nat × W)} {wp : Nat × Nat × W → Prop} (hf : Format wk entry wp)
    (hok : Spec.BodyOk entry body) (hwp : ∀ en ∈ Spec.entriesOf entry body, wp en)
    (hc : MmConsistent lw ow R C N (Spec.entriesOf entry body)) (hfit : 4 * N < 2 ^ ow)
    (e : Nat × Nat × W) (he : e ∈ Spec.entriesOf entry body) (hout : C < e.1) (out : M (Coo W))
    (hrun : LoadMm μ lw ow { sym := true } wk T out) :
    ∃ c, out = .ok c ∧ ∃ y ∈ c.y, c.ncols ≤ y := by
  obtain ⟨c, h1, h2, _, h4, _⟩ := C23_symmetric_weighted_partial μ hpad lw ow T hT h hf hok hwp hc hfit out hrun
  refine ⟨c, h1, e.1, ?_, by omega⟩
  rw [h2.y, List.mem_map]
  refine ⟨(e.2.1, e.1, e.2.2), ?_, rfl⟩
  unfold storedAll
  rw [List.mem_flatMap]
  refine ⟨e, he, ?_⟩
  have hcol := hc.cols e he
  have hne : e.1 ≠ e.2.1 := by omega
  obtain ⟨x, y, w⟩ := e
  have hne' : x ≠ y := hne
  simp [Spec.stored, hne']

/-- A file meeting the hypotheses of both: the body of the project's own intweight.mtx, declared with 5 rows and 2 columns. -/
def exMmFree : List Byte :=
  str "%%MatrixMarket matrix coordinate integer symmetric\n5 2 5\n5 1 4\n4 1         +1\n4 2 asdf        \\ 3\n4 1 12\n2 1 ff  -10\n"

def exMmFreeBody : List (List Byte) :=
  [str "5 1 4", str "4 1         +1", str "4 2 asdf        \\ 3", str "4 1 12", str "2 1 ff  -10", []]

theorem exMmFree_entries : Spec.entriesOf Spec.entryInS exMmFreeBody = [(5, 1, 4), (4, 1, 1), (4, 2, 3), (4, 1, 12), (2, 1, -10)] := by
  decide +kernel

theorem exMmFree_file : Spec.MmFile exMmFree 5 2 5 exMmFreeBody :=
  ⟨by decide +kernel, by decide +kernel, [str "%%MatrixMarket matrix coordinate integer symmetric"], str "5 2 5", by decide +kernel,
    by decide +kernel, [], by decide +kernel⟩

attribute [irreducible] exMmFree

example (pad T : Nat) (hpad : 0 < pad) (hT : 0 < T) (out : M (Coo Int)) (hrun : LoadMm ⟨exMmFree, pad⟩ 32 64 { sym := true } (wSint 32) T out) :
    ∃ c, out = .ok c ∧ c.ncols = 3 ∧ c.m = 10 ∧ c.y = [1, 5, 1, 4, 2, 4, 1, 4, 1, 2] ∧ c.w = [4, 4, 1, 1, 3, 3, 12, 12, -10, -10] := by
  obtain ⟨c, hc, hh, _, h2, _⟩ := C23_symmetric_weighted_partial ⟨exMmFree, pad⟩ hpad 32 64 T hT exMmFree_file
    (wk := wSint 32) (entry := Spec.entryInS) (.sintIn 32) ⟨by decide +kernel, by decide +kernel⟩ (by rw [exMmFree_entries]; decide)
    (by rw [exMmFree_entries]; exact ⟨by decide +kernel, by decide +kernel, rfl, by decide +kernel, by decide +kernel, by decide +kernel⟩) (by decide) out hrun
  rw [exMmFree_entries] at hh
  exact ⟨c, hc, h2, hh.m, hh.y, hh.w rfl⟩

example : ∃ e ∈ Spec.entriesOf Spec.entryInS exMmFreeBody, 2 < e.1 := by rw [exMmFree_entries]; decide

end Pigo
