import Verif.Props.EdgeList
import Verif.Lemmas.Safety
import Verif.Spec.Edits

/-!
# Properties of loading edge lists (C11, C17, C18, C19)
-/

namespace Pigo

variable {W : Type}

/-! ### C11 -/

theorem strip_no_comment (l : List Byte) (h : ∀ b ∈ l, Spec.isComment b = false) (t : List Byte) :
    Spec.stripComment (l ++ t) = l ++ Spec.stripComment t := by
  induction l with
  | nil => rfl
  | cons a l ih =>
    have ha := h a (List.mem_cons_self ..)
    show List.takeWhile _ (a :: (l ++ t)) = _
    rw [List.takeWhile_cons, if_pos (by simp [ha])]
    exact congrArg (a :: ·) (ih (fun b hb => h b (List.mem_cons_of_mem _ hb)))

theorem strip_comment (l t : List Byte) (h : ∃ b ∈ l, Spec.isComment b = true) :
    Spec.stripComment (l ++ t) = Spec.stripComment l := by
  induction l with
  | nil => obtain ⟨b, hb, _⟩ := h; simp at hb
  | cons a l ih =>
    show List.takeWhile _ (a :: (l ++ t)) = List.takeWhile _ (a :: l)
    rw [List.takeWhile_cons, List.takeWhile_cons]
    by_cases ha : Spec.isComment a = true
    · simp [ha]
    · obtain ⟨b, hb, hc⟩ := h
      rcases List.mem_cons.mp hb with rfl | hb
      · exact absurd hc ha
      · have := ih ⟨b, hb, hc⟩
        unfold Spec.stripComment at this
        rw [this]

theorem has_comment (l : List Byte) : (∀ b ∈ l, Spec.isComment b = false) ∨ ∃ b ∈ l, Spec.isComment b = true := by
  by_cases h : ∃ b ∈ l, Spec.isComment b = true
  · exact .inr h
  · refine .inl fun b hb => ?_
    cases hc : Spec.isComment b with
    | false => rfl
    | true => exact absurd ⟨b, hb, hc⟩ h

theorem digitRuns_append (a t : List Byte) (c : Byte) (h : Spec.isDigit c = false) :
    Spec.digitRuns (a ++ c :: t) = Spec.digitRuns a ++ Spec.digitRuns t := by
  unfold Spec.digitRuns
  rw [List.splitOnP_append_cons a t (by simp [h]), List.filter_append]

theorem ints_comment (l t : List Byte) (c : Byte) (h : Spec.isComment c = true) :
    Spec.ints (l ++ c :: t) = Spec.ints l := by
  unfold Spec.ints
  rcases has_comment l with hl | hl
  · rw [strip_no_comment l hl]
    have : Spec.stripComment (c :: t) = [] := by simp [Spec.stripComment, h]
    rw [this]
    have h2 := strip_no_comment l hl []
    rw [List.append_nil] at h2
    rw [h2]; simp [Spec.stripComment]
  · rw [strip_comment _ _ hl]

theorem ints_columns (l t : List Byte) (c : Byte) (h : Spec.isDigit c = false) :
    ∃ k, Spec.ints (l ++ c :: t) = Spec.ints l ++ k := by
  unfold Spec.ints
  rcases has_comment l with hl | hl
  · rw [strip_no_comment l hl]
    have h2 := strip_no_comment l hl []
    rw [List.append_nil] at h2
    rw [h2]
    by_cases hc : Spec.isComment c = true
    · exact ⟨[], by simp [Spec.stripComment, hc]⟩
    · have : Spec.stripComment (c :: t) = c :: Spec.stripComment t := by simp [Spec.stripComment, hc]
      rw [this, digitRuns_append _ _ _ h]
      rw [show Spec.stripComment ([] : List Byte) = [] from rfl, List.append_nil, List.map_append]
      exact ⟨_, rfl⟩
  · rw [strip_comment _ _ hl]; exact ⟨[], by simp⟩

theorem edit_edges {a b : List (List Byte)} (h : Spec.Edit a b) :
    a.filterMap Spec.edge = b.filterMap Spec.edge := by
  cases h with
  | insertLine p q l h =>
    rw [List.filterMap_append, List.filterMap_append, List.filterMap_cons, edge_ints h]
  | comment p q l c t h =>
    rw [List.filterMap_append, List.filterMap_append, List.filterMap_cons, List.filterMap_cons]
    have : Spec.edge (l ++ c :: t) = Spec.edge l := by unfold Spec.edge; rw [ints_comment _ _ _ h]
    rw [this]
  | columns p q l c t h he =>
    rw [List.filterMap_append, List.filterMap_append, List.filterMap_cons, List.filterMap_cons]
    have : Spec.edge (l ++ c :: t) = Spec.edge l := by
      obtain ⟨k, hk⟩ := ints_columns l t c h
      unfold Spec.edge at he ⊢
      rw [hk]
      match hi : Spec.ints l with
      | [] => rw [hi] at he; simp at he
      | [x] => rw [hi] at he; simp at he
      | x :: y :: r => rfl
    rw [this]

theorem edits_edges {a b : List (List Byte)} (h : Spec.Edits a b) :
    a.filterMap Spec.edge = b.filterMap Spec.edge := by
  induction h with
  | refl => rfl
  | fwd h _ ih => rw [edit_edges h, ih]
  | bwd h _ ih => rw [← edit_edges h, ih]

/-- **C11** Two well-formed files that differ by inserted or deleted blank and comment lines, trailing comments
and extra columns load to the same COO: any flags, any numbers of threads, any executions. -/
theorem C11_comments_irrelevant (μ μ' : Mapping) (hpad : 0 < μ.pad) (hpad' : 0 < μ'.pad) (lw ow T T' : Nat)
    (hT : 0 < T) (hT' : 0 < T') (hok : Spec.EdgeListOk μ.bytes) (hok' : Spec.EdgeListOk μ'.bytes)
    (hed : Spec.Edits (Spec.lines μ.bytes) (Spec.lines μ'.bytes)) (cfg : Cfg)
    (hlab : ∀ e ∈ Spec.edges μ.bytes, e.1 < 2 ^ lw ∧ e.2 < 2 ^ lw)
    (hm : (storedAll cfg ((Spec.edges μ.bytes).map unw)).length < 2 ^ ow) (out out' : M (Coo Unit))
    (hrun : LoadEdgeList μ lw ow cfg wNone T out) (hrun' : LoadEdgeList μ' lw ow cfg wNone T' out') :
    out = out' ∧ ∃ c, out = .ok c := by
  have he : Spec.edges μ.bytes = Spec.edges μ'.bytes := edits_edges hed
  have h1 := load_unweighted hpad hok hlab cfg hT hm hrun
  have h2 := load_unweighted hpad' hok' (by rw [← he]; exact hlab) cfg hT' (by rw [← he]; exact hm) hrun'
  rw [h1, h2, he]
  exact ⟨rfl, _, rfl⟩

/-- Inserting keeps a file well-formed, so in C11 only the file with less text has to be assumed well-formed. -/
theorem edit_ok {f g : List Byte} (hf : Spec.EdgeListOk f) (h : Spec.Edit (Spec.lines f) (Spec.lines g)) :
    Spec.EdgeListOk g := by
  have key : ∀ a b : List (List Byte), Spec.Edit a b → (∀ l ∈ a, Spec.LineOk l) →
      (∀ x, a.getLast? = some x → Spec.ints x = []) →
      (∀ l ∈ b, Spec.LineOk l) ∧ (∀ x, b.getLast? = some x → Spec.ints x = []) := by
    intro a b hab hl hlast
    cases hab with
    | insertLine p q l h =>
      refine ⟨fun x hx => ?_, fun x hx => ?_⟩
      · simp only [List.mem_append, List.mem_cons] at hx
        rcases hx with hx | rfl | hx
        · exact hl x (List.mem_append_left _ hx)
        · exact .inl h
        · exact hl x (List.mem_append_right _ hx)
      · cases q with
        | nil => simp at hx; subst hx; exact h
        | cons y q => apply hlast; simpa using hx
    | comment p q l c t h =>
      refine ⟨fun x hx => ?_, fun x hx => ?_⟩
      · simp only [List.mem_append, List.mem_cons] at hx
        rcases hx with hx | rfl | hx
        · exact hl x (by simp [hx])
        · have := hl l (by simp)
          unfold Spec.LineOk Spec.edge at this ⊢
          rw [ints_comment _ _ _ h]; exact this
        · exact hl x (by simp [hx])
      · cases q with
        | nil => simp at hx; subst hx; rw [ints_comment _ _ _ h]; exact hlast l (by simp)
        | cons y q => apply hlast; simpa using hx
    | columns p q l c t h he =>
      have hne : Spec.ints l ≠ [] := by
        intro h0; rw [edge_ints h0] at he; simp at he
      refine ⟨fun x hx => ?_, fun x hx => ?_⟩
      · simp only [List.mem_append, List.mem_cons] at hx
        rcases hx with hx | rfl | hx
        · exact hl x (by simp [hx])
        · refine .inr ?_
          obtain ⟨e, he⟩ := Option.isSome_iff_exists.mp he
          refine ⟨e, ?_⟩
          have := edit_edges (Spec.Edit.columns [] [] l c t h (by simp [he]))
          simp only [List.nil_append, List.filterMap_cons, he, List.filterMap_nil] at this
          split at this
          · simp at this
          · simp only [List.cons.injEq, and_true] at this; rw [this]; assumption
        · exact hl x (by simp [hx])
      · cases q with
        | nil => exact absurd (hlast l (by simp)) hne
        | cons y q => apply hlast; simpa using hx
  obtain ⟨h1, h2⟩ := key _ _ h hf.line (fun x hx => by
    rw [List.getLast?_eq_some_getLast (Spec.lines_ne_nil f)] at hx
    injection hx with hx; rw [← hx]; exact hf.last)
  exact ⟨h1, h2 _ (List.getLast?_eq_some_getLast (Spec.lines_ne_nil g))⟩

/-- The hypotheses of C11 hold for a file and a version with comments, blank lines and columns. -/
example : Spec.EdgeListOk (str "1 2\n3 4\n") ∧
    Spec.Edits (Spec.lines (str "1 2\n3 4\n")) (Spec.lines (str "% 7 8\n1 2 # 5 6\n\n3 4, 99\n")) := by
  constructor
  · refine ⟨?_, by decide⟩
    have : ∀ l ∈ Spec.lines (str "1 2\n3 4\n"), Spec.ints l = [] ∨ (Spec.edge l).isSome := by decide
    intro l hl
    rcases this l hl with h | h
    · exact .inl h
    · exact .inr (Option.isSome_iff_exists.mp h)
  · have h1 : Spec.lines (str "1 2\n3 4\n") = [str "1 2", str "3 4", []] := by decide
    have h2 : Spec.lines (str "% 7 8\n1 2 # 5 6\n\n3 4, 99\n") =
      [str "% 7 8", str "1 2 # 5 6", [], str "3 4, 99", []] := by decide
    rw [h1, h2]
    refine .fwd (.insertLine [] _ (str "% 7 8") (by decide)) ?_
    refine .fwd (.columns [str "% 7 8"] _ (str "1 2") 32 (str "# 5 6") (by decide) (by decide)) ?_
    refine .fwd (.insertLine [str "% 7 8", str "1 2 # 5 6"] _ [] (by decide)) ?_
    refine .fwd (.columns [str "% 7 8", str "1 2 # 5 6", []] _ (str "3 4") 44 (str " 99") (by decide) (by decide)) ?_
    exact .refl _

/-! ### C17 -/

/-- **C17**, partial: weights stay with their entry under every flag combination, provided the flags drop no
entry of this file.  Missing: files with dropped entries, for which the claim fails (below). -/
theorem C17_weights_filtered_partial (μ : Mapping) (hpad : 0 < μ.pad) (lw ow ww T : Nat) (hT : 0 < T)
    (hok : Spec.FileOk Spec.entryU μ.bytes)
    (hlab : ∀ e ∈ Spec.entries Spec.entryU μ.bytes, e.1 < 2 ^ lw ∧ e.2.1 < 2 ^ lw ∧ e.2.2 < 2 ^ ww)
    (cfg : Cfg) (hsl : cfg.sl = true → ∀ e ∈ Spec.entries Spec.entryU μ.bytes, e.1 ≠ e.2.1)
    (hut : cfg.ut = true → cfg.sym = false → ∀ e ∈ Spec.entries Spec.entryU μ.bytes, e.1 ≤ e.2.1)
    (hm : (storedAll cfg (Spec.entries Spec.entryU μ.bytes)).length < 2 ^ ow) (out : M (Coo Nat))
    (hrun : LoadEdgeList μ lw ow cfg (wUint ww) T out) :
    ∃ c, out = .ok c ∧ Holds c true (storedAll cfg (Spec.entries Spec.entryU μ.bytes)) := by
  refine ⟨_, load_any hpad (format_uint lw ww) hok (fun e he => (hlab e he).2.2)
    (fun e he => ⟨(hlab e he).1, (hlab e he).2.1⟩) cfg hT (.inr ?_) hm hrun, cooOf_holds ..⟩
  intro ⟨x, y, w⟩ he
  have h1 := fun h => hsl h _ he
  have h2 := fun h h' => hut h h' _ he
  obtain ⟨sym, ut, sl⟩ := cfg
  simp only at h1 h2
  simp only [storedC, Spec.stored]
  cases sl <;> cases sym <;> cases ut <;> simp_all <;> split <;> simp

/-- A weighted file whose last entry is a self-loop. -/
def exLoops : Mapping := ⟨str "2 3 7\n1 1 5\n", 4084⟩

/-- **C17 fails**: loading this well-formed weighted file with `remove_self_loops` stores a weight outside of the
allocated array, in every execution with one thread. -/
theorem C17_weights_filtered_violated :
    Spec.FileOk Spec.entryU exLoops.bytes ∧ Spec.entries Spec.entryU exLoops.bytes = [(2, 3, 7), (1, 1, 5)] ∧
    ∀ out, LoadEdgeList exLoops 32 64 { sl := true } (wUint 32) 1 out → out = .error .oob := by
  refine ⟨⟨by decide, by decide⟩, by decide, ?_⟩
  intro out h
  unfold LoadEdgeList ReadEl at h
  have hp : readElPlan exLoops 32 64 { sl := true } (wUint 32) 1 (fileReader exLoops) =
      .ok { m := 1, threads := [[.setW 0 7, .setX 0 2, .setY 0 3, .setW 1 5, .setW 1 0]], mr := 2, mc := 3 } := by decide
  rw [hp] at h
  obtain ⟨j, sched, hint, rfl⟩ := h
  unfold execPlan
  have hs := interleave_eq_flatten stepAct hint (by
    intro i j hij li lj hi hj
    obtain ⟨h1, _⟩ := List.getElem?_eq_some_iff.mp hj
    simp at h1; omega) (allocCoo (wUint 32).wgt j 1)
  simp only [hs]
  rfl

/-- Running the second thread before the first one. -/
theorem interleave_swap {α : Type} (a b : List α) : Interleave [a, b] (b ++ a) := by
  induction b with
  | nil =>
    have := interleave_flatten [a, []]
    simpa using this
  | cons c b ih => exact .step (i := 1) (l := b) rfl (by simpa using ih)

/-- **C17 fails** also without a fault: with two threads, the weight of a dropped line of the first thread can be
stored over the weight of the second thread's first entry `(1, 2)`, which was written as 9 in the file. -/
theorem C17_wrong_weight :
    ∃ (μ : Mapping) (c : Coo Nat), Spec.FileOk Spec.entryU μ.bytes ∧
      Spec.entries Spec.entryU μ.bytes = [(2, 3, 7), (1, 1, 5), (1, 2, 9)] ∧
      LoadEdgeList μ 32 64 { sl := true } (wUint 32) 2 (.ok c) ∧
      c.x = [2, 1] ∧ c.y = [3, 2] ∧ c.w = [7, 0] := by
  refine ⟨⟨str "2 3 7\n1 1 5\n1 2 9\n", 4078⟩,
    { x := [2, 1], y := [3, 2], w := [7, 0], n := 4, m := 2, nrows := 3, ncols := 4 },
    ⟨by decide, by decide⟩, by decide, ?_, rfl, rfl, rfl⟩
  unfold LoadEdgeList ReadEl
  have hp : readElPlan ⟨str "2 3 7\n1 1 5\n1 2 9\n", 4078⟩ 32 64 { sl := true } (wUint 32) 2
      (fileReader ⟨str "2 3 7\n1 1 5\n1 2 9\n", 4078⟩) =
      .ok { m := 2, threads := [[.setW 0 7, .setX 0 2, .setY 0 3, .setW 1 5, .setW 1 0],
        [.setW 1 9, .setX 1 1, .setY 1 2]], mr := 2, mc := 3 } := by decide
  rw [hp]
  exact ⟨⟨fun _ => 0, fun _ => 0, fun _ => 0⟩, _, interleave_swap _ _, by decide⟩

/-! ### C18 -/

theorem lines_snoc_nl (f : List Byte) : Spec.lines (f ++ [nl]) = Spec.lines f ++ [[]] := by
  unfold Spec.lines
  rw [List.splitOn_append_cons_self]; rfl

/-- **C18**, partial: if the text after the last newline has no integer, terminating it with a newline does not
change the loaded COO.  Missing: a last data line without newline, for which the claim fails (below). -/
theorem C18_final_newline_partial (μ μ' : Mapping) (hpad : 0 < μ.pad) (hpad' : 0 < μ'.pad)
    (hfile : μ'.bytes = μ.bytes ++ [nl]) (lw ow T T' : Nat)
    (hT : 0 < T) (hT' : 0 < T') (hok : Spec.EdgeListOk μ.bytes) (cfg : Cfg)
    (hlab : ∀ e ∈ Spec.edges μ.bytes, e.1 < 2 ^ lw ∧ e.2 < 2 ^ lw)
    (hm : (storedAll cfg ((Spec.edges μ.bytes).map unw)).length < 2 ^ ow) (out out' : M (Coo Unit))
    (hrun : LoadEdgeList μ lw ow cfg wNone T out) (hrun' : LoadEdgeList μ' lw ow cfg wNone T' out') :
    out = out' ∧ ∃ c, out = .ok c := by
  have hed : Spec.Edit (Spec.lines μ.bytes) (Spec.lines μ'.bytes) := by
    rw [hfile, lines_snoc_nl]
    have := Spec.Edit.insertLine (Spec.lines μ.bytes) [] [] (by decide)
    rwa [List.append_nil] at this
  exact C11_comments_irrelevant μ μ' hpad hpad' lw ow T T' hT hT' hok (edit_ok hok hed) (.fwd hed (.refl _)) cfg
    hlab hm out out' hrun hrun'

example : Spec.EdgeListOk exFile.bytes := exFile_ok

/-- **C18 fails**: with the last data line not terminated, the last entry is counted but never stored; whatever
was in the allocated memory is what the COO holds.  Terminated by a newline the file loads as `(1,2), (3,4)`. -/
theorem C18_final_newline_violated (junkx junky : Nat) :
    ∃ c : Coo Unit, LoadEdgeList ⟨str "1 2\n3 4", 4089⟩ 32 64 {} wNone 1 (.ok c) ∧
      c.x = [1, junkx] ∧ c.y = [2, junky] ∧ c.m = 2 := by
  refine ⟨{ x := [1, junkx], y := [2, junky], w := [], n := 3, m := 2, nrows := 2, ncols := 3 }, ?_, rfl, rfl, rfl⟩
  unfold LoadEdgeList ReadEl
  have h : readElPlan ⟨str "1 2\n3 4", 4089⟩ 32 64 {} wNone 1 (fileReader ⟨str "1 2\n3 4", 4089⟩) =
      .ok { m := 2, threads := [[.setX 0 1, .setY 0 2]], mr := 1, mc := 2 } := by decide
  rw [h]
  exact ⟨⟨fun _ => junkx, fun _ => junky, fun _ => ()⟩, _, interleave_flatten _, rfl⟩

/-- **C18 fails** with a flag on: the last line is silently dropped. -/
theorem C18_final_line_dropped :
    ∃ c : Coo Unit, LoadEdgeList ⟨str "1 2\n3 4", 4089⟩ 32 64 { sl := true } wNone 1 (.ok c) ∧
      c.x = [1] ∧ c.y = [2] ∧ c.m = 1 := by
  refine ⟨{ x := [1], y := [2], w := [], n := 3, m := 1, nrows := 2, ncols := 3 }, ?_, rfl, rfl, rfl⟩
  unfold LoadEdgeList ReadEl
  have h : readElPlan ⟨str "1 2\n3 4", 4089⟩ 32 64 { sl := true } wNone 1 (fileReader ⟨str "1 2\n3 4", 4089⟩) =
      .ok { m := 1, threads := [[.setX 0 1, .setY 0 2]], mr := 1, mc := 2 } := by decide
  rw [h]
  exact ⟨⟨fun _ => 0, fun _ => 0, fun _ => ()⟩, _, interleave_flatten _, rfl⟩

/-! ### C19 -/

/-- The mapping of a file with pages of `page` bytes: readable up to the end of the last page
(`mmap`, impl/pigo.impl.hpp 60–76). -/
def mapFile (page : Nat) (file : List Byte) : Mapping := ⟨file, (page - file.length % page) % page⟩

theorem mapFile_pad {page : Nat} {file : List Byte} (hp : 0 < page) : 0 < (mapFile page file).pad ↔ ¬ page ∣ file.length := by
  unfold mapFile
  simp only
  have h1 := Nat.mod_lt file.length hp
  rw [Nat.dvd_iff_mod_eq_zero]
  rcases Nat.eq_zero_or_pos (file.length % page) with h | h
  · rw [h]; simp
  · rw [Nat.mod_eq_of_lt (by omega)]; omega

/-- **C19** Loading any file at all (well-formed or not, any bytes) as an unweighted edge list with any flags and
any number of threads makes no load outside the mapped pages and no store outside the allocated arrays, and
terminates, provided the file size is not a multiple of the page size. -/
theorem C19_memory_safe (page : Nat) (hp : 0 < page) (file : List Byte) (hd : ¬ page ∣ file.length)
    (lw ow T : Nat) (hT : 0 < T) (cfg : Cfg) (hm : file.length < 2 ^ ow) (out : M (Coo Unit))
    (hrun : LoadEdgeList (mapFile page file) lw ow cfg wNone T out) : ∃ c, out = .ok c := by
  have hpad := (mapFile_pad (file := file) hp).mpr hd
  have hr : fileReader (mapFile page file) = rd (mapFile page file).bytes.length file := by
    simp [fileReader, rd, mapFile]
  unfold LoadEdgeList at hrun
  rw [hr] at hrun
  exact readEl_safe (s := file) (e := (mapFile page file).bytes.length) ⟨by simp [mapFile], Nat.le_refl _⟩
    (by unfold Readable; omega) lw ow cfg hT hm hrun

example : ¬ 4096 ∣ (str "not an edge list 5").length := by decide

/-- A computation whose only possible fault is an access outside of memory. -/
structure OobOnly {α : Type} (m : M α) : Prop where
  only : ∀ f, m = .error f → f = .oob

theorem OobOnly.ok {α : Type} (a : α) : OobOnly (.ok a : M α) := ⟨by intro f h; cases h⟩
theorem OobOnly.bind {α β : Type} {m : M α} {k : α → M β} (h : OobOnly m) (hk : ∀ a, OobOnly (k a)) :
    OobOnly (m >>= k) := by
  cases m with
  | error f => exact ⟨fun g hg => by simp only [error_bind] at hg; injection hg with hg; subst hg; exact h.only _ rfl⟩
  | ok a => exact hk a
theorem OobOnly.get (μ : Mapping) (p : Nat) : OobOnly (μ.get p) := by
  refine ⟨fun f h => ?_⟩
  unfold Mapping.get at h
  split at h
  · cases h
  · split at h
    · cases h
    · injection h with h; exact h.symm
theorem OobOnly.scan (μ : Mapping) (P : Byte → Bool) (r : Reader) : OobOnly (scan μ P r) := by
  unfold Pigo.scan
  generalize r.e - r.d = n
  induction n generalizing r with
  | zero => exact .ok _
  | succ n ih =>
    unfold scanN
    split
    · refine .bind (.get _ _) fun b => ?_
      split
      · exact ih _
      · exact .ok _
    · exact .ok _
theorem OobOnly.skipLineN (μ : Mapping) (n : Nat) (r : Reader) : OobOnly (skipLineN μ n r) := by
  induction n generalizing r with
  | zero => exact .ok _
  | succ n ih =>
    unfold Pigo.skipLineN
    split
    · refine .bind (.get _ _) fun b => ?_
      split
      · exact ih _
      · exact .ok _
    · exact .ok _
theorem OobOnly.skipCommentsN (μ : Mapping) (n : Nat) (r : Reader) : OobOnly (skipCommentsN μ n r) := by
  induction n generalizing r with
  | zero => exact .ok _
  | succ n ih =>
    unfold Pigo.skipCommentsN
    split
    · refine .bind (.get _ _) fun b => ?_
      split
      · exact .bind (.skipLineN ..) fun r => ih r
      · exact .ok _
    · exact .ok _
theorem OobOnly.skipIfCom (μ : Mapping) (r : Reader) : OobOnly (skipIfCom μ r) := by
  unfold Pigo.skipIfCom
  refine .bind (.get _ _) fun b => ?_
  split
  · exact .skipCommentsN ..
  · exact .ok _
theorem OobOnly.firstN (μ : Mapping) (st : Byte → Bool) (n : Nat) (r : Reader) : OobOnly (firstN μ st n r) := by
  induction n generalizing r with
  | zero => exact .ok _
  | succ n ih =>
    unfold Pigo.firstN
    split
    · refine .bind (.get _ _) fun b => ?_
      split
      · exact .ok _
      · exact .bind (.skipIfCom ..) fun r => ih r
    · exact .ok _
theorem OobOnly.moveToFirstInt (μ : Mapping) (r : Reader) : OobOnly (moveToFirstInt μ r) := by
  unfold Pigo.moveToFirstInt
  exact .bind (.skipIfCom ..) fun r => .firstN ..
theorem OobOnly.nextLineInt (μ : Mapping) (r : Reader) : OobOnly (nextLineInt μ r) := by
  unfold Pigo.nextLineInt
  refine .bind (.scan ..) fun r => ?_
  unfold moveToNextInt
  exact .bind (.scan ..) fun r => .moveToFirstInt ..
theorem OobOnly.elRegion (μ : Mapping) (r : Reader) (T tid : Nat) : OobOnly (elRegion μ r T tid) := by
  unfold Pigo.elRegion
  refine .bind (.nextLineInt ..) fun re => .bind ?_ fun rs => .ok _
  unfold elStart
  split
  · exact .nextLineInt ..
  · exact .moveToFirstInt ..

theorem mapE_oob {α β : Type} (f : α → M β) (l : List α) (h : ∀ a ∈ l, OobOnly (f a)) (a : α) (ha : a ∈ l)
    (hf : f a = .error .oob) : mapE f l = .error .oob := by
  induction l with
  | nil => simp at ha
  | cons b l ih =>
    unfold mapE
    cases hb : f b with
    | error g => rw [error_bind, (h b (List.mem_cons_self ..)).only g hb]
    | ok v =>
      rcases List.mem_cons.mp ha with rfl | ha
      · rw [hf] at hb; cases hb
      · rw [ok_bind, ih (fun x hx => h x (List.mem_cons_of_mem _ hx)) ha, error_bind]

/-- The region of the last thread starts by loading the byte at the end of the file. -/
theorem elRegion_end (μ : Mapping) (hpad : μ.pad = 0) (T : Nat) (hT : 0 < T) :
    elRegion μ (fileReader μ) T (T - 1) = .error .oob := by
  unfold elRegion
  have h1 : (fileReader μ).plus ((T - 1 + 1) * (fileReader μ).size / T) = ⟨μ.bytes.length, μ.bytes.length⟩ := by
    rw [Nat.sub_add_cancel hT, Nat.mul_div_cancel_left _ hT]
    simp [Reader.plus, fileReader, Reader.size]
  rw [h1]
  have h2 : nextLineInt μ ⟨μ.bytes.length, μ.bytes.length⟩ = .error .oob := by
    unfold nextLineInt moveToEol moveToNextInt moveToNonInt moveToFirstInt skipIfCom scan
    simp only [Nat.sub_self, scanN, ok_bind]
    rw [μ.get_oob (by omega)]
    rfl
  rw [h2, error_bind]

/-- **C19 fails** when the file size is a multiple of the page size: every execution, on every such file, for
every weight type, flags and thread count, loads the byte after the mapping. -/
theorem C19_page_multiple_violated (page : Nat) (hp : 0 < page) (file : List Byte) (hd : page ∣ file.length)
    (lw ow T : Nat) (hT : 0 < T) (cfg : Cfg) (wk : WKind W) (out : M (Coo W))
    (hrun : LoadEdgeList (mapFile page file) lw ow cfg wk T out) : out = .error .oob := by
  have hpad : (mapFile page file).pad = 0 := by
    have := mapFile_pad (file := file) hp
    rcases Nat.eq_zero_or_pos (mapFile page file).pad with h | h
    · exact h
    · exact absurd hd (this.mp h)
  have h : readElPlan (mapFile page file) lw ow cfg wk T (fileReader (mapFile page file)) = .error .oob := by
    unfold readElPlan
    rw [mapE_oob (elRegion (mapFile page file) (fileReader (mapFile page file)) T) (List.range T) (fun a _ => .elRegion ..) (T - 1) (List.mem_range.mpr (by omega)) (elRegion_end _ hpad T hT),
      error_bind]
  unfold LoadEdgeList ReadEl at hrun
  rw [h] at hrun
  exact hrun

example : 4 ∣ (str "1 2\n").length := by decide

/-- **C19 fails** for weighted files that are not well-formed: a last line with one integer stores a weight
outside of the allocated array although the file size is not a multiple of the page size. -/
theorem C19_weighted_malformed_violated :
    ∀ out, LoadEdgeList (mapFile 4096 (str "1 2 3\n7\n")) 32 64 {} (wUint 32) 1 out → out = .error .oob := by
  intro out h
  unfold LoadEdgeList ReadEl at h
  have hp : readElPlan (mapFile 4096 (str "1 2 3\n7\n")) 32 64 {} (wUint 32) 1
      (fileReader (mapFile 4096 (str "1 2 3\n7\n"))) =
      .ok { m := 1, threads := [[.setW 0 3, .setX 0 1, .setY 0 2, .setW 1 0]], mr := 1, mc := 2 } := by decide
  rw [hp] at h
  obtain ⟨j, sched, hint, rfl⟩ := h
  unfold execPlan
  have hs := interleave_eq_flatten stepAct hint (by
    intro i j hij li lj hi hj
    obtain ⟨h1, _⟩ := List.getElem?_eq_some_iff.mp hj
    simp at h1; omega) (allocCoo (wUint 32).wgt j 1)
  simp only [hs]
  rfl

end Pigo
