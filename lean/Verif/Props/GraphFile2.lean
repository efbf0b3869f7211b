import Verif.Props.GraphFile
import Verif.Model.Dispatch

/-!
# `.graph` files with comments or without a newline at the end (C61, C71, C72)
-/

namespace Pigo

variable {W : Type}

/-! ### C58: the constructor -/

/-- **C58** `CSR(fn, GRAPH)`, and `CSR(fn)` when the type is detected as `.graph`, of an unweighted CSR have exactly the
executions of `LoadGraph` (with the file position unchanged). -/
theorem C58_constructor (P : Params W) (hw : P.wk.wgt = false) (μ : Mapping) (fn : List Byte) (ft : FileType)
    (hft : ft = .graph ∨ ft = .auto ∧ guessFileType μ fn 0 = .ok .graph) (o : M (Csr W × Nat)) :
    (readCsr P μ fn 0 ft).Out o ↔
      ∃ out, LoadGraph μ (8 * P.lb) (8 * P.ob) P.T out ∧ o = out.map (fun c => (c, 0)) := by
  have hu : usedType μ fn 0 ft = .ok .graph := by
    rcases hft with rfl | ⟨rfl, h⟩
    · rfl
    · rw [usedType, if_pos rfl, h]
  have key : ∀ o, (readCsr P μ fn 0 ft).Out o ↔
      ((readGraph (8 * P.lb) (8 * P.ob) P.T μ (readerAt μ 0) >>= fun c => pure (c, 0) : R (Csr W × Nat))).Out o := by
    intro o
    unfold readCsr
    rw [hu]
    constructor
    · rintro ⟨_, rfl, h⟩
      simp only [hw] at h
      exact h
    · intro h
      refine ⟨_, rfl, ?_⟩
      simp only [hw]
      exact h
  rw [key]
  constructor
  · rintro ⟨out, h1, h2⟩
    refine ⟨out, h1, ?_⟩
    cases out with
    | error f => exact h2
    | ok c => exact h2
  · rintro ⟨out, h1, rfl⟩
    refine ⟨out, h1, ?_⟩
    cases out with
    | error f => rfl
    | ok c => rfl

/-- **C58** A CSR with weights is not loaded from a `.graph` file: every execution throws "not yet implemented", whatever the file. -/
theorem C58_weighted_rejected (P : Params W) (hw : P.wk.wgt = true) (μ : Mapping) (fn : List Byte) (ft : FileType)
    (hft : ft = .graph ∨ ft = .auto ∧ guessFileType μ fn 0 = .ok .graph) (o : M (Csr W × Nat)) (h : (readCsr P μ fn 0 ft).Out o) :
    o = .error .nyi := by
  have hu : usedType μ fn 0 ft = .ok .graph := by
    rcases hft with rfl | ⟨rfl, hg⟩
    · rfl
    · rw [usedType, if_pos rfl, hg]
  unfold readCsr at h
  rw [hu] at h
  obtain ⟨_, rfl, h⟩ := h
  simp only [hw] at h
  exact h

/-- **C58** (detection) A file name ending in `.graph` is detected as such, unless the file starts like a PIGO binary file. -/
theorem C58_detected (μ : Mapping) (fn : List Byte) (hfn : str ".graph" <:+ fn) (hp : ¬ str "PIGO" <+: μ.bytes) :
    guessFileType μ fn 0 = .ok .graph := by
  have hno : ∀ s, str "PIGO" <+: s → atStr μ s ⟨0, μ.bytes.length⟩ = .ok false := by
    intro s hs
    have := atStr_file μ s
    unfold fileReader at this
    rw [this]
    congr 1
    exact decide_eq_false (fun h => hp (hs.trans h.1))
  have he : endsWith fn (str ".graph") = true := by
    obtain ⟨q, rfl⟩ := hfn
    simp [endsWith]
  have hm : endsWith fn (str ".mtx") = false := by
    obtain ⟨q, rfl⟩ := hfn
    have : (q ++ str ".graph").length - (str ".mtx").length = q.length + 2 := by
      rw [List.length_append]; simp [str]
    unfold endsWith
    rw [this, ← List.drop_drop, List.drop_left]
    simp only [Bool.and_eq_false_iff]
    exact .inr (by decide)
  unfold guessFileType
  simp only [hno cooMagic (by decide), hno csrMagic (by decide), hno digraphMagic (by decide), hno tensorMagic (by decide),
    hno (str "PIGO") (List.prefix_refl _), ok_bind, he, hm]
  rfl

example : guessFileType exGraph0 (str "dir/web.graph") 0 = .ok .graph :=
  C58_detected exGraph0 _ ⟨str "dir/web", by decide⟩ (by decide)

/-! ### C61: comments with digits -/

/-- Digits in a comment after the neighbours of a vertex. -/
def exGraphC : Mapping := ⟨str "2 2\n0 1 # 5 6 7 8 9\n1 0\n", 5⟩

/-- Running the stores of a plan one thread after the other is an execution. -/
theorem loadGraph_run {μ : Mapping} {lw ow T : Nat} {p : GPlan} (hp : graphPlan μ lw ow T (fileReader μ) = .ok p) {jo je : Nat → Nat}
    {o o' e' : List Nat} (ho : graphInit p.base p.n p.m (alloc jo (plusOne lw p.n)) = .ok o)
    (hr : runActs (sumStep storeAct storeAct) p.threads.flatten (o, alloc je p.m) = .ok (o', e')) :
    LoadGraph μ lw ow T (graphFinish (W := W) lw ow p o' e') := by
  refine ⟨_, rfl, ?_⟩
  rw [hp]
  refine ⟨_, ⟨jo, trivial, rfl⟩, _, ⟨je, trivial, rfl⟩, _, rfl, ?_⟩
  rw [ho]
  refine ⟨_, ⟨_, interleave_flatten _, rfl⟩, ?_⟩
  rw [hr]
  rfl

/-- What an execution is, given the plan. -/
theorem loadGraph_inv {μ : Mapping} {lw ow T : Nat} {p : GPlan} (hp : graphPlan μ lw ow T (fileReader μ) = .ok p) {out : M (Csr W)}
    (h : LoadGraph μ lw ow T out) {c : Csr W} (hc : out = .ok c) : ∃ o' e', graphFinish lw ow p o' e' = .ok c := by
  subst hc
  obtain ⟨o1, rfl, h⟩ := h
  rw [hp] at h
  obtain ⟨_, ⟨jo, _, rfl⟩, _, ⟨je, _, rfl⟩, o2, rfl, h⟩ := h
  split at h
  · cases h
  · obtain ⟨o3, ⟨sched, _, rfl⟩, h⟩ := h
    split at h
    · cases h
    · rename_i q _
      exact ⟨q.1, q.2, h.symm⟩

/-- An execution that faults in its plan only has that outcome. -/
theorem loadGraph_fault {μ : Mapping} {lw ow T : Nat} {f : Fault} (hp : graphPlan μ lw ow T (fileReader μ) = .error f) (out : M (Csr W)) :
    LoadGraph μ lw ow T out ↔ out = .error f := by
  constructor
  · rintro ⟨o1, rfl, h⟩
    rw [hp] at h
    exact h
  · rintro rfl
    refine ⟨_, rfl, ?_⟩
    rw [hp]

/-- **C61 is violated**: with one thread the file loads with the rows `[0, 1]` and `[1, 0]`, with two threads every
execution fails, because a thread starts inside the comment. -/
theorem C61_digits_in_comment_violated :
    (∃ c : Csr Unit, LoadGraph exGraphC 32 64 1 (.ok c) ∧ Spec.row c 0 = [0, 1] ∧ Spec.row c 1 = [1, 0] ∧ c.n = 2) ∧
    ∀ out : M (Csr Unit), LoadGraph exGraphC 32 64 2 out → ∀ c, out ≠ .ok c := by
  constructor
  · have h1 : graphPlan exGraphC 32 64 1 (fileReader exGraphC) = .ok
        { readN := 2, readM := 2, n := 2, m := 4, base := 0
          threads := [[.inr (0, 0), .inr (1, 1), .inl (1, 2), .inr (2, 1), .inr (3, 0), .inl (2, 4)]], colMax := 1 } := by decide
    have h2 := loadGraph_run (W := Unit) h1 (jo := fun _ => 0) (je := fun _ => 0) (o := [0, 0, 4]) (o' := [0, 2, 4]) (e' := [0, 1, 1, 0])
      (by decide) (by decide)
    exact ⟨_, h2, by decide, by decide, rfl⟩
  · intro out h c hc
    have h1 : ∃ ts, graphPlan exGraphC 32 64 2 (fileReader exGraphC) = .ok
        { readN := 2, readM := 2, n := 2, m := 7, base := 0, threads := ts, colMax := 9 } :=
      ⟨[[.inr (0, 0), .inr (1, 1), .inr (2, 0)], [.inr (3, 8), .inr (4, 9), .inl (1, 5), .inr (5, 1), .inr (6, 0), .inl (2, 7)]], by decide⟩
    obtain ⟨ts, h1⟩ := h1
    obtain ⟨o', e', h2⟩ := loadGraph_inv h1 h hc
    rw [graphFinish, if_pos (by simp only; decide)] at h2
    cases h2

/-! ### C71: no newline at the end -/

/-- **C71 is violated** by every 0-based file whose last row is not ended by a newline: it is not counted as a row and every
execution throws. -/
theorem C71_zero_based_throws_violated (μ : Mapping) (hpad : 0 < μ.pad) (lw ow T n m : Nat) (hT : 0 < T)
    (body : List (List Byte)) (tail : List Byte) (h : Spec.GraphFile μ.bytes n m body tail)
    (hz : Spec.ZeroBased body tail) (hn : body.length + 1 = n) (hnw : n + 2 < 2 ^ lw)
    (hints : (Spec.adjacency (body ++ [tail])).flatten.length < 2 ^ ow) (out : M (Csr W)) (hrun : LoadGraph μ lw ow T out) :
    out = .error .error := by
  have h1 : (loadedRows body).length ≤ body.length := by
    have := dropWhile_len_le List.isEmpty (body.map Spec.digitRuns)
    simpa [loadedRows] using this
  have h3 : (Spec.adjacency (body ++ [tail])).flatten = ((loadedRows body).flatten ++ Spec.digitRuns tail).map Spec.decimal := by
    unfold loadedRows Spec.adjacency
    rw [flatten_dropWhile, List.map_append, List.flatten_append, List.map_append, List.map_flatten, List.map_map]
    simp [Function.comp_def]
  rw [h3, List.length_map] at hints
  rw [loadGraph_iff hpad h hT (by rw [fileBase_zero.mpr hz]; omega) hints, fileBase_zero.mpr hz] at hrun
  obtain ⟨junk, _, rfl⟩ := hrun
  unfold graphFinish
  split
  · rfl
  · rw [if_pos (by simp only; rw [Nat.mod_eq_of_lt (by omega : n < 2 ^ lw)]; omega)]

/-- **C71 is violated** by 1-based files: the file is accepted, `m()` counts the neighbours of the last vertex, but the
offsets end before them (`offsets[n()] < m()`) and their endpoints are not initialised: any values may be there. -/
theorem C71_one_based_violated (μ : Mapping) (hpad : 0 < μ.pad) (lw ow T n m : Nat) (hT : 0 < T)
    (body : List (List Byte)) (tail : List Byte) (h : Spec.GraphFile μ.bytes n m body tail) (hz : ¬ Spec.ZeroBased body tail)
    (hfirst : ∃ r, (Spec.adjacency body).head? = some r ∧ r ≠ []) (hlast : Spec.digitRuns tail ≠ [])
    (hn : body.length + 1 = n) (hnw : n + 2 < 2 ^ lw) (hm2 : 2 * m < 2 ^ ow)
    (he : (Spec.adjacency (body ++ [tail])).flatten.length = m ∨ (Spec.adjacency (body ++ [tail])).flatten.length = 2 * m) :
    (∀ out : M (Csr W), LoadGraph μ lw ow T out → ∃ c, out = .ok c ∧ c.n = n ∧
      c.m = (Spec.adjacency (body ++ [tail])).flatten.length ∧ Spec.off c c.n < c.m) ∧
    ∀ junk : List Nat, junk.length = (Spec.digitRuns tail).length → ∃ c : Csr W, LoadGraph μ lw ow T (.ok c) ∧
      ∃ kept, c.endpoints = kept ++ junk := by
  have hb : loadedRows body = body.map Spec.digitRuns := by
    obtain ⟨r, hr, hne⟩ := hfirst
    unfold loadedRows
    cases body with
    | nil => simp [Spec.adjacency] at hr
    | cons l body =>
      simp only [Spec.adjacency, List.map_cons, List.head?_cons, Option.some.injEq] at hr
      rw [List.map_cons, List.dropWhile_cons, if_neg]
      intro h0
      rw [List.isEmpty_iff] at h0
      rw [h0] at hr; exact hne hr.symm
  have hbl : (loadedRows body).length = body.length := by rw [hb, List.length_map]
  have h3 : (Spec.adjacency (body ++ [tail])).flatten = ((loadedRows body).flatten ++ Spec.digitRuns tail).map Spec.decimal := by
    unfold loadedRows Spec.adjacency
    rw [flatten_dropWhile, List.map_append, List.flatten_append, List.map_append, List.map_flatten, List.map_map]
    simp [Function.comp_def]
  rw [h3, List.length_map] at he ⊢
  have hints : ((loadedRows body).flatten ++ Spec.digitRuns tail).length < 2 ^ ow := by omega
  have hbne : loadedRows body ≠ [] := by
    obtain ⟨r, hr, _⟩ := hfirst
    intro h0
    rw [hb, List.map_eq_nil_iff] at h0
    subst h0
    simp [Spec.adjacency] at hr
  have hiff := loadGraph_iff (W := W) hpad h hT (lw := lw) (ow := ow) (by rw [fileBase_one.mpr hz]; omega) hints
  rw [fileBase_one.mpr hz] at hiff
  have hfin : ∀ offs eps, (graphFinish lw ow
      { readN := n % 2 ^ lw, readM := m % 2 ^ ow, n := 1 + (loadedRows body).length,
                                m := ((loadedRows body).flatten ++ Spec.digitRuns tail).length, base := 1,
                                threads := [], colMax := ((loadedRows body).flatten.map (rval lw)).foldl max 0 } offs eps : M (Csr W)) =
      .ok { offsets := offs, endpoints := eps, weights := [], n := n, m := ((loadedRows body).flatten ++ Spec.digitRuns tail).length,
            nrows := 1 + (loadedRows body).length,
            ncols := (((loadedRows body).flatten.map (rval lw)).foldl max 0 + 1) % 2 ^ lw } := by
    intro offs eps
    unfold graphFinish
    simp only
    rw [Nat.mod_eq_of_lt (by omega : m < 2 ^ ow), twice_lt hm2, Nat.mod_eq_of_lt (by omega : n < 2 ^ lw), if_neg (by omega),
      if_neg (by omega)]
  constructor
  · intro out hrun
    rw [hiff] at hrun
    obtain ⟨junk, hj, rfl⟩ := hrun
    rw [hfin]
    refine ⟨_, rfl, rfl, rfl, ?_⟩
    unfold Spec.off
    simp only
    rw [graphOffsets, if_neg hbne, List.getD_eq_getElem?_getD]
    have hpos : 0 < body.length := by rw [← hbl]; exact List.length_pos_iff.mpr hbne
    rw [List.getElem?_append_right (by simp; omega), List.length_replicate, ← List.getD_eq_getElem?_getD,
      show n - (1 + 1) = body.length - 1 from by omega, prefixSums_getD _ _ _ (by rw [List.length_map]; omega),
      List.take_of_length_le (by rw [List.length_map]; omega), List.length_append, List.length_flatten]
    have := List.length_pos_iff.mpr hlast
    omega
  · intro junk hj
    have := (hiff _).mpr ⟨junk, hj, rfl⟩
    rw [hfin] at this
    exact ⟨_, this, _, rfl⟩

/-- The path 1 – 2 – 3, without a newline at the end, in both numberings. -/
def exGraphN1 : Mapping := ⟨str "3 2\n2\n1 3\n2", 5⟩
def exGraphN0 : Mapping := ⟨str "3 2\n1\n0 2\n1", 5⟩

theorem exGraphN1_file : Spec.GraphFile exGraphN1.bytes 3 2 [str "2", str "1 3"] (str "2") :=
  ⟨⟨[], str "3 2", by decide, by decide, [], by decide⟩, by decide⟩
theorem exGraphN0_file : Spec.GraphFile exGraphN0.bytes 3 2 [str "1", str "0 2"] (str "1") :=
  ⟨⟨[], str "3 2", by decide, by decide, [], by decide⟩, by decide⟩

example : (∃ c : Csr Unit, LoadGraph exGraphN1 32 64 2 (.ok c) ∧ ∃ kept, c.endpoints = kept ++ [77]) ∧
    ∃ out : M (Csr Unit), LoadGraph exGraphN0 32 64 2 out ∧ out = .error .error := by
  constructor
  · exact (C71_one_based_violated exGraphN1 (by decide) 32 64 2 3 2 (by decide) _ _ exGraphN1_file (by
      rintro ⟨l, hl, h⟩
      have : ∀ l ∈ [str "2", str "1 3"] ++ [str "2"], [48] ∉ Spec.digitRuns l := by decide
      exact this l hl h) ⟨[2], by decide, by decide⟩ (by decide) (by decide) (by decide) (by decide) (by decide)).2 [77] (by decide)
  · obtain ⟨out, h⟩ := loadGraph_exists (W := Unit) exGraphN0 32 64 2
    exact ⟨out, h, C71_zero_based_throws_violated exGraphN0 (by decide) 32 64 2 3 2 (by decide) _ _ exGraphN0_file
      ⟨str "0 2", by decide, by decide⟩ (by decide) (by decide) (by decide) out h⟩

/-! ### C72: comments in the body -/

/-- A comment on a line of its own between the rows. -/
def exGraphL : Mapping := ⟨str "2 2\n0 1\n# abc\n1 0\n", 5⟩
/-- A comment right after an integer. -/
def exGraphG : Mapping := ⟨str "2 2\n0 1#\n1 0\n", 5⟩
/-- A comment after the last newline. -/
def exGraphT : Mapping := ⟨str "2 2\n0 1\n1 0\n# abc", 5⟩
/-- A comment sign as last byte. -/
def exGraphH : Mapping := ⟨str "2 2\n0 1\n1 0\n#", 5⟩

/-- **C72 is violated**: a comment on a line of its own is loaded as an empty row, so the rows after it are shifted:
vertex 1 has no neighbours in the loaded CSR. -/
theorem C72_comment_line_violated : ∃ c : Csr Unit, LoadGraph exGraphL 32 64 1 (.ok c) ∧
    Spec.row c 0 = [0, 1] ∧ Spec.row c 1 = [] ∧ Spec.row c 2 = [1, 0] ∧ c.n = 2 := by
  have h1 : graphPlan exGraphL 32 64 1 (fileReader exGraphL) = .ok
      { readN := 2, readM := 2, n := 3, m := 4, base := 0
        threads := [[.inr (0, 0), .inr (1, 1), .inl (1, 2), .inl (2, 2), .inr (2, 1), .inr (3, 0), .inl (3, 4)]], colMax := 1 } := by decide
  have h2 := loadGraph_run (W := Unit) h1 (jo := fun _ => 0) (je := fun _ => 0) (o := [0, 0, 0, 4]) (o' := [0, 2, 2, 4])
    (e' := [0, 1, 1, 0]) (by decide) (by decide)
  exact ⟨_, h2, by decide, by decide, by decide, rfl⟩

/-- **C72 is violated**: after a comment that follows an integer without a blank the second pass sees two rows where the first
saw one; the last row is dropped and its endpoints stay uninitialised (here: any `a`, `b`), without an error. -/
theorem C72_glued_comment_violated (a b : Nat) : ∃ c : Csr Unit, LoadGraph exGraphG 32 64 1 (.ok c) ∧
    Spec.row c 0 = [0, 1] ∧ Spec.row c 1 = [] ∧ c.n = 2 ∧ c.m = 4 ∧ c.endpoints = [0, 1, a, b] := by
  have h1 : graphPlan exGraphG 32 64 1 (fileReader exGraphG) = .ok
      { readN := 2, readM := 2, n := 2, m := 4, base := 0
        threads := [[.inr (0, 0), .inr (1, 1), .inl (1, 2), .inl (2, 2)]], colMax := 1 } := by decide
  have h2 := loadGraph_run (W := Unit) h1 (jo := fun _ => 0) (je := fun i => if i = 2 then a else b) (o := [0, 0, 4]) (o' := [0, 2, 2])
    (e' := [0, 1, a, b]) (by decide) (by rfl)
  exact ⟨_, h2, rfl, rfl, rfl, rfl, rfl⟩

/-- **C72 is violated**: a comment after the last newline is counted as an integer, so that the file is rejected. -/
theorem C72_last_comment_violated (out : M (Csr Unit)) (h : LoadGraph exGraphT 32 64 1 out) : ∀ c, out ≠ .ok c := by
  intro c hc
  have h1 : ∃ ts, graphPlan exGraphT 32 64 1 (fileReader exGraphT) = .ok
      { readN := 2, readM := 2, n := 2, m := 5, base := 0, threads := ts, colMax := 1 } :=
    ⟨[[.inr (0, 0), .inr (1, 1), .inl (1, 2), .inr (2, 1), .inr (3, 0), .inl (2, 4)]], by decide⟩
  obtain ⟨ts, h1⟩ := h1
  obtain ⟨o', e', h2⟩ := loadGraph_inv h1 h hc
  rw [graphFinish, if_pos (by simp only; decide)] at h2
  cases h2

/-- At a comment sign that is the last byte before the end of the reader, moving to the next integer or newline does not move. -/
theorem intOrNl_stuck (μ : Mapping) (r : Reader) (b : Byte) (he : r.e = r.d + 1) (hb : μ.get r.d = .ok b) (hc : isCom b = true) :
    moveToNextIntOrNl μ r = .ok r := by
  have hd : isDigit b = false := isCom_not_digit hc
  have hn : (b == nl) = false := by
    cases h : (b == nl) with
    | false => rfl
    | true => rw [beq_iff_eq] at h; subst h; exact absurd hc (by decide)
  have hlt : r.d < r.e := by omega
  have h1 : guarded μ isDigit r = .ok false := by rw [guarded, if_pos hlt, hb, ok_bind, hd]
  have h2 : moveToNonInt μ r = .ok r := by
    unfold moveToNonInt scan
    rw [he, Nat.add_sub_cancel_left]
    rw [scanN, if_pos hlt, hb, ok_bind, hd]
    rfl
  have h3 : guarded μ (· == nl) r = .ok false := by rw [guarded, if_pos hlt, hb, ok_bind, hn]
  have h4 : skipComments μ r = .ok { r with d := r.e } := by
    unfold skipComments
    rw [he, Nat.add_sub_cancel_left, skipCommentsN, if_pos hlt, hb, ok_bind, if_pos hc, he, Nat.add_sub_cancel_left,
      skipLineN, if_pos hlt, hb, ok_bind, if_pos (by simp only [bne, hn]; rfl)]
    simp only [skipLineN, ok_bind, skipCommentsN]
    obtain ⟨d, e⟩ := r
    simp only at he
    subst he
    rfl
  unfold moveToNextIntOrNl
  rw [h1, ok_bind, h2, ok_bind, h3, ok_bind]
  simp only [Bool.false_and, Bool.false_eq_true, if_false]
  rw [intOrNlRest, hb, ok_bind, if_pos hc, h4, ok_bind]
  obtain ⟨d, e⟩ := r
  simp only at he
  subst he
  rfl

/-- The first pass never ends from there: no number of iterations is enough. -/
theorem graphCount_stuck (μ : Mapping) (r : Reader) (b : Byte) (he : r.e = r.d + 1) (hb : μ.get r.d = .ok b) (hc : isCom b = true)
    (k : Nat) : ∀ c, whileGood (graphCount μ) k c r = .error .fuel := by
  have hlt : r.d < r.e := by omega
  have hg : r.good = true := by simp [Reader.good, hlt]
  have hz : atZero μ r = .ok false := by
    unfold atZero
    rw [if_neg (by omega), hb, ok_bind]
    have : (b != 48) = true := by
      simp only [isCom, Bool.or_eq_true, beq_iff_eq] at hc
      rcases hc with rfl | rfl <;> decide
    rw [if_pos this]
  have hs := intOrNl_stuck μ r b he hb hc
  induction k with
  | zero => intro c; rw [whileGood, if_pos hg]
  | succ k ih =>
    intro c
    rw [whileGood, if_pos hg, graphCount, atNlOrEol, if_neg (by omega), hb]
    simp only [ok_bind]
    rw [hz, ok_bind, hs, ok_bind]
    simp only [ok_bind]
    exact ih _

/-- **C72 is violated**: if the last byte of the file is a comment sign, loading does not terminate.  The model, which counts
iterations, reports it: `Fault.fuel` is the only outcome; `graphCount_stuck` shows that no number of iterations suffices. -/
theorem C72_hang_violated (out : M (Csr Unit)) (h : LoadGraph exGraphH 32 64 1 out) : out = .error .fuel :=
  (loadGraph_fault (by decide) out).mp h

/-- **C72** No count of iterations ends the first pass of the file of `C72_hang_violated`, from the last byte on, at which
it arrives. -/
theorem C72_hang_any_bound (k : Nat) (c : GCount) : whileGood (graphCount exGraphH) k c ⟨12, 13⟩ = .error .fuel :=
  graphCount_stuck exGraphH ⟨12, 13⟩ 35 rfl rfl (by decide) k c

end Pigo
