import Verif.Spec.MatrixMarket
import Verif.Lemmas.EdgeFile

/-!
# Reading Matrix Market files
-/

namespace Pigo

variable {W : Type}

theorem firstIntL_idem (l : List Byte) : firstIntL (firstIntL l) = firstIntL l := by
  cases h : firstIntL l with
  | nil => simp [toStop]
  | cons c t =>
    have hc := toStop_head isDigit false l c t h
    show toStop isDigit false (c :: t) = _
    rw [toStop.eq_3, hc.1, hc.2]; rfl

/-- What a line carries is determined by the scanner. -/
theorem LineLaw.unique {lw : Nat} {wk : WKind W} {l : List Byte} {a b : Nat × Nat × W} (h1 : LineLaw lw wk l a)
    (h2 : LineLaw lw wk l b) : a = b := by
  obtain ⟨x, y, w⟩ := a
  obtain ⟨x', y', w'⟩ := b
  have e1 : x = x' := h1.xv.trans h2.xv.symm
  have e2 : y = y' := h1.yv.trans h2.yv.symm
  have v := View.full ⟨(nextIntL (firstIntL l)).dropWhile isDigit ++ nl :: [], 1⟩
  have hr : Readable ⟨(nextIntL (firstIntL l)).dropWhile isDigit ++ nl :: [], 1⟩
      ((nextIntL (firstIntL l)).dropWhile isDigit ++ nl :: []).length := by unfold Readable; simp
  obtain ⟨⟨u1, _, q1⟩, _⟩ := h1.wt _ _ [] v hr
  obtain ⟨⟨u2, _, q2⟩, _⟩ := h2.wt _ _ [] v hr
  rw [q1] at q2
  injection q2 with q2
  injection q2 with q2 _
  exact Prod.ext e1 (Prod.ext e2 q2)

theorem LineLaw.first {lw : Nat} {wk : WKind W} {l : List Byte} {a : Nat × Nat × W} (h : LineLaw lw wk l a) :
    LineLaw lw wk (firstIntL l) a where
  nonl := not_mem_firstInt h.nonl
  hx := by rw [firstIntL_idem]; exact h.hx
  xv := by rw [firstIntL_idem]; exact h.xv
  hy := by rw [firstIntL_idem]; exact h.hy
  yv := by rw [firstIntL_idem]; exact h.yv
  wt := by rw [firstIntL_idem]; exact h.wt

/-- `read_el_` started at the first integer instead of the beginning of the text. -/
theorem readEl_first {μ : Mapping} {e lw ow : Nat} {ls : List (List Byte)} {tail : List Byte} {wk : WKind W}
    {ent : List Byte → Option (Nat × Nat × W)} (cfg : Cfg) {T : Nat} (hT : 0 < T)
    (st : ElState μ e ls tail) (hls : ∀ l ∈ ls, EntOk lw wk ent l)
    (hd : WTrivial wk ∨ ∀ en ∈ ls.filterMap ent, storedC cfg en ≠ [])
    (hm : total cfg (ls.filterMap ent) < 2 ^ ow) (out : M (Coo W))
    (hrun : ReadEl μ lw ow cfg wk T (rd e (firstIntL (text ls ++ tail))) out) :
    out = .ok (cooOf lw cfg wk.wgt (ls.filterMap ent)) := by
  by_cases hne : firstIntL (text ls ++ tail) = []
  · have he : ls.filterMap ent = [] := by
      have := region_length ls hls (g := tail)
      rw [hne] at this
      exact List.length_eq_zero_iff.mp (by simpa using this)
    rw [hne] at hrun
    rw [he]
    have st' : ElState μ e [] [] := ⟨by simpa using st.view.of_suffix List.nil_suffix, st.rdb, (fun _ h => nomatch h), (fun h => nomatch h), by show toStop isDigit false [] = []; simp [toStop]⟩
    exact readEl_det (ls := []) (tail := []) (ent := ent) cfg hT st' (by simp) (.inr (by simp)) (by simpa [total] using Nat.two_pow_pos ow) out hrun
  · obtain ⟨A, l, en, B, h1, h2, h3, h4⟩ := region_first ls hls st.tint hne
    have hl := hls l (by rw [h1]; simp)
    have hlaw : LineLaw lw wk l en := by have := hl.2; rw [h3] at this; exact this
    rw [h4] at hrun
    let ent' : List Byte → Option (Nat × Nat × W) := fun l' => if l' = firstIntL l then some en else ent l'
    have hB : ∀ l' ∈ B, ent' l' = ent l' := by
      intro l' hl'
      show (if _ then _ else _) = _
      split
      · rename_i heq
        have hk := hls l' (by rw [h1]; simp [hl'])
        have hlaw' := hlaw.first
        rw [← heq] at hlaw'
        cases h5 : ent l' with
        | none =>
          have := hk.2; rw [h5] at this
          exact absurd this hlaw'.hx
        | some en' =>
          have := hk.2; rw [h5] at this
          rw [hlaw'.unique this]
      · rfl
    have hfm : (firstIntL l :: B).filterMap ent' = ls.filterMap ent := by
      have e1 : B.filterMap ent' = B.filterMap ent := by
        clear h1 h2 h4 hrun
        induction B with
        | nil => rfl
        | cons b B ih =>
          rw [List.filterMap_cons, List.filterMap_cons, hB b (List.mem_cons_self ..),
            ih (fun l' h => hB l' (List.mem_cons_of_mem _ h))]
      have e2 : ent' (firstIntL l) = some en := if_pos rfl
      rw [List.filterMap_cons_some e2, e1, h1, List.filterMap_append, h2, List.filterMap_cons_some h3]; rfl
    have hsuf : firstIntL l ++ nl :: (text B ++ tail) <:+ text ls ++ tail := by
      rw [← h4]; exact toStop_suffix _ _ _
    have st' : ElState μ e (firstIntL l :: B) tail := by
      refine ⟨?_, st.rdb, ?_, st.tnonl, st.tint⟩
      · rw [text_cons, List.append_assoc, List.cons_append]; exact st.view.of_suffix hsuf
      · intro l' hl'
        rcases List.mem_cons.mp hl' with rfl | hl'
        · exact not_mem_firstInt hl.1
        · exact st.nonl l' (by rw [h1]; simp [hl'])
    rw [← hfm] at hd hm ⊢
    refine readEl_det cfg hT st' ?_ hd hm out (by rw [text_cons, List.append_assoc, List.cons_append]; exact hrun)
    intro l' hl'
    rcases List.mem_cons.mp hl' with rfl | hl'
    · refine ⟨not_mem_firstInt hl.1, ?_⟩
      rw [show ent' (firstIntL l) = some en from if_pos rfl]
      exact hlaw.first
    · have := hls l' (by rw [h1]; simp [hl'])
      refine ⟨this.1, ?_⟩
      rw [hB l' hl']; exact this.2

theorem getBytes_eq {μ : Mapping} : ∀ (n p : Nat), p + n ≤ μ.bytes.length →
    getBytes μ n p = .ok ((μ.bytes.drop p).take n)
  | 0, p, _ => by simp [getBytes]
  | n+1, p, h => by
    rw [getBytes, Mapping.get_lt _ (by omega), ok_bind, getBytes_eq n (p+1) (by omega), ok_bind,
      List.drop_eq_getElem_cons (by omega : p < μ.bytes.length), List.take_succ_cons]

/-- `at_str` at the beginning of a file. -/
theorem atStr_file (μ : Mapping) (s : List Byte) :
    atStr μ s (fileReader μ) = .ok (decide (s <+: μ.bytes ∧ s.length < μ.bytes.length)) := by
  unfold atStr fileReader
  simp only [Nat.zero_add]
  by_cases h : s.length < μ.bytes.length
  · rw [if_neg (by omega), getBytes_eq _ _ (by omega), ok_bind]
    congr 1
    rw [List.drop_zero, Bool.eq_iff_iff, beq_iff_eq, decide_eq_true_eq]
    constructor
    · intro hh; exact ⟨List.prefix_iff_eq_take.mpr hh.symm, h⟩
    · intro hh; exact (List.prefix_iff_eq_take.mp hh.1).symm
  · rw [if_pos (by omega)]
    congr 1
    rw [eq_comm, decide_eq_false_iff_not]
    exact fun hh => h hh.2

theorem lines_text {ls : List (List Byte)} {tail : List Byte} (h1 : NoNl ls) (h2 : nl ∉ tail) :
    Spec.lines (text ls ++ tail) = ls ++ [tail] := by
  induction ls with
  | nil =>
    simp only [text_nil, List.nil_append, Spec.lines]
    have := List.splitOn_eq_singleton (xs := tail) (a := nl) h2
    exact this
  | cons l ls ih =>
    have hl := h1 l (List.mem_cons_self ..)
    rw [text_cons, List.append_assoc, List.cons_append]
    have := List.splitOn_append_cons_self (a := nl) l (text ls ++ tail)
    unfold Spec.lines at *
    rw [List.splitOn_eq_singleton hl] at this
    rw [List.cons_append, ← ih (fun l h => h1 l (List.mem_cons_of_mem _ h))]
    exact this

theorem firstInt_blank {pre : List (List Byte)} (hn : NoNl pre) (h : ∀ l ∈ pre, Spec.ints l = []) (X : List Byte) :
    firstIntL (text pre ++ X) = firstIntL X := by
  induction pre with
  | nil => rfl
  | cons l pre ih =>
    have hl := hn l (List.mem_cons_self ..)
    have := toStop_line isDigit isDigit_nl l (text pre ++ X) hl
    rw [text_cons, List.append_assoc, List.cons_append]
    show toStop isDigit false _ = _
    rw [this, if_pos ((firstIntL_nil_iff l hl).mpr (h l (List.mem_cons_self ..)))]
    exact ih (fun l h => hn l (List.mem_cons_of_mem _ h)) (fun l' h' => h l' (List.mem_cons_of_mem _ h'))

/-- One integer of the size line and the way to the next one. -/
theorem readInt_step {μ : Mapping} {e : Nat} (hr : Readable μ e) (w : Nat) {l rest : List Byte} (hn : nl ∉ l) {x : Nat}
    {t : List Nat} (h : Spec.ints l = x :: t) (v : View μ e (firstIntL l ++ nl :: rest)) :
    ∃ l', nl ∉ l' ∧ Spec.ints l' = t ∧ View μ e (l' ++ nl :: rest) ∧
      readInt μ (wrapU w) (rd e (firstIntL l ++ nl :: rest)) = .ok (x % 2 ^ w, rd e (l' ++ nl :: rest)) ∧
      (t ≠ [] → moveToNextInt μ (rd e (l' ++ nl :: rest)) = .ok (rd e (firstIntL l' ++ nl :: rest)) ∧
        View μ e (firstIntL l' ++ nl :: rest)) := by
  obtain ⟨h1, h2, h3⟩ := ints_cons l hn x t h
  have n1 : nl ∉ (firstIntL l).dropWhile isDigit := not_mem_dropWhile _ (not_mem_firstInt hn)
  have hsuf : (firstIntL l).dropWhile isDigit ++ nl :: rest <:+ firstIntL l ++ nl :: rest :=
    suffix_nl rest (dropWhile_suffix' _ _)
  refine ⟨(firstIntL l).dropWhile isDigit, n1, h3, v.of_suffix hsuf, ?_, ?_⟩
  · rw [h2]; exact readInt_line w false l _ rest rfl h1 v
  · intro ht
    have hne : firstIntL ((firstIntL l).dropWhile isDigit) ≠ [] := by
      intro hc; rw [firstIntL_nil_iff _ n1, h3] at hc; exact ht hc
    have hnx : nextIntL ((firstIntL l).dropWhile isDigit) = firstIntL ((firstIntL l).dropWhile isDigit) := by
      unfold nextIntL; rw [dropWhile_idem]
    constructor
    · rw [moveToNextInt_eq (v.of_suffix hsuf) hr, nextIntL_line _ _ n1 (by rw [hnx]; exact hne), hnx]
    · exact v.of_suffix ((suffix_nl rest (toStop_suffix _ _ _)).trans hsuf)

/-- Where the size line of a Matrix Market file is found. -/
theorem mmHeader_at {μ : Mapping} (hpad : 0 < μ.pad) {R C N : Nat} {body : List (List Byte)}
    (h : Spec.MmFile μ.bytes R C N body) :
    ∃ size t, nl ∉ size ∧ Spec.ints size = R :: C :: N :: t ∧ Readable μ μ.bytes.length ∧ NoNl body ∧
      atStr μ mmBanner (fileReader μ) = .ok true ∧
      moveToNextInt μ (fileReader μ) = .ok (rd μ.bytes.length (firstIntL size ++ nl ::
        (text body.dropLast ++ body.getLast h.body_ne))) ∧
      View μ μ.bytes.length (firstIntL size ++ nl :: (text body.dropLast ++ body.getLast h.body_ne)) := by
  obtain ⟨pre, size, hl, hpre, t, hsize⟩ := h.layout
  have hno := lines_noNl μ.bytes
  rw [hl] at hno
  have hnp : NoNl pre := fun l h => hno l (by simp [h])
  have hns : nl ∉ size := hno size (by simp)
  have hnb : NoNl body := fun l h => hno l (by simp [h])
  have hr : Readable μ μ.bytes.length := by unfold Readable; omega
  have htext : μ.bytes = text pre ++ (size ++ nl :: (text body.dropLast ++ body.getLast h.body_ne)) := by
    have h1 := text_lines μ.bytes
    have h2 : (Spec.lines μ.bytes).dropLast = pre ++ size :: body.dropLast := by
      rw [hl, List.dropLast_append_of_ne_nil (by simp), List.dropLast_cons_of_ne_nil h.body_ne]
    have h3 : (Spec.lines μ.bytes).getLast (Spec.lines_ne_nil _) = body.getLast h.body_ne := by
      simp only [hl]
      rw [List.getLast_append_of_ne_nil (by simp) (by simp), List.getLast_cons h.body_ne]
    rw [h2, h3, text_append, text_cons] at h1
    simpa using h1
  generalize hrest : text body.dropLast ++ body.getLast h.body_ne = rest at *
  have v := View.full μ
  have hlen : mmBanner.length < μ.bytes.length := by
    rcases Nat.lt_or_ge mmBanner.length μ.bytes.length with hlt | hge
    · exact hlt
    · exfalso
      have hb : mmBanner = μ.bytes := h.banner.eq_of_length_le hge
      rw [← hb] at hl
      have hll : (Spec.lines mmBanner).length = 1 := by decide
      rw [hl] at hll
      have := List.length_pos_iff.mpr h.body_ne
      simp at hll; omega
  have hat : atStr μ mmBanner (fileReader μ) = .ok true := by
    rw [atStr_file]; congr 1; exact decide_eq_true ⟨h.banner, hlen⟩
  have hrd : fileReader μ = rd μ.bytes.length μ.bytes := by simp [fileReader, rd]
  have hfst : nextIntL μ.bytes = firstIntL size ++ nl :: rest := by
    have hd : μ.bytes.dropWhile isDigit = μ.bytes := by
      obtain ⟨q, hq⟩ := h.banner
      rw [← hq]; rfl
    unfold nextIntL
    rw [hd, htext, firstInt_blank hnp hpre]
    show toStop isDigit false _ = _
    rw [toStop_line isDigit isDigit_nl size rest hns, if_neg]
    intro hc
    rw [firstIntL_nil_iff size hns, hsize] at hc; cases hc
  have v0 : View μ μ.bytes.length (firstIntL size ++ nl :: rest) := by
    rw [← hfst]
    exact v.of_suffix ((toStop_suffix _ _ _).trans (dropWhile_suffix' _ _))
  refine ⟨size, t, hns, hsize, hr, hnb, hat, ?_, v0⟩
  rw [hrd, moveToNextInt_eq v hr, hfst]

/-- The header of a Matrix Market file. -/
theorem readMmHeader_eq {μ : Mapping} (hpad : 0 < μ.pad) {R C N : Nat} {body : List (List Byte)}
    (h : Spec.MmFile μ.bytes R C N body) (lw ow : Nat) :
    readMmHeader μ lw ow (fileReader μ) = .ok ((R % 2 ^ lw + 1) % 2 ^ lw, (C % 2 ^ lw + 1) % 2 ^ lw, N % 2 ^ ow,
      rd μ.bytes.length (firstIntL (text body.dropLast ++ body.getLast h.body_ne))) ∧
    View μ μ.bytes.length (text body.dropLast ++ body.getLast h.body_ne) ∧ NoNl body := by
  obtain ⟨size, t, hns, hsize, hr, hnb, hat, hfst, v0⟩ := mmHeader_at hpad h
  generalize text body.dropLast ++ body.getLast h.body_ne = rest at *
  obtain ⟨l1, n1, i1, v1, r1, m1⟩ := readInt_step hr lw hns hsize v0
  obtain ⟨m1, v1'⟩ := m1 (by simp)
  obtain ⟨l2, n2, i2, v2, r2, m2⟩ := readInt_step hr lw n1 i1 v1'
  obtain ⟨m2, v2'⟩ := m2 (by simp)
  obtain ⟨l3, n3, i3, v3, r3, m3⟩ := readInt_step hr ow n2 i2 v2'
  have he : eolL (l3 ++ nl :: rest) = nl :: rest := eolL_line l3 rest n3
  have ve : View μ μ.bytes.length (nl :: rest) := v3.append
  refine ⟨?_, ve.tail, hnb⟩
  unfold readMmHeader
  rw [hat, ok_bind]
  simp only [Bool.not_true, Bool.false_eq_true, if_false]
  rw [hfst, ok_bind, r1, ok_bind]
  simp only []
  rw [m1, ok_bind, r2, ok_bind]
  simp only []
  rw [m2, ok_bind, r3, ok_bind]
  simp only []
  rw [moveToEol_eq v3, he, ok_bind, moveToNextInt_eq ve hr, nextIntL_nl, ok_bind]

/-- An execution of the constructor `COO(fn, MATRIX_MARKET)` (impl/coo.impl.hpp 18–29, 39–41). -/
def LoadMm (μ : Mapping) (lw ow : Nat) (cfg : Cfg) (wk : WKind W) (T : Nat) (out : M (Coo W)) : Prop :=
  ReadMm μ lw ow cfg wk T (fileReader μ) out

/-- Any execution on a well-formed file: what the checks are applied to. -/
theorem loadMm_any {μ : Mapping} (hpad : 0 < μ.pad) {R C N : Nat} {body : List (List Byte)}
    (h : Spec.MmFile μ.bytes R C N body) {lw ow : Nat} {wk : WKind W}
    {entry : List Byte → Option (Nat × Nat × W)} {wp : Nat × Nat × W → Prop} (hf : FormatOk lw wk entry wp)
    (hok : Spec.BodyOk entry body) (hwp : ∀ en ∈ Spec.entriesOf entry body, wp en)
    (hlab : ∀ e ∈ Spec.entriesOf entry body, e.1 < 2 ^ lw ∧ e.2.1 < 2 ^ lw)
    (cfg : Cfg) {T : Nat} (hT : 0 < T)
    (hd : WTrivial wk ∨ ∀ en ∈ Spec.entriesOf entry body, storedC cfg en ≠ [])
    (hm : ((Spec.entriesOf entry body).flatMap (storedC cfg)).length < 2 ^ ow) {out : M (Coo W)}
    (hrun : LoadMm μ lw ow cfg wk T out) :
    out = mmCheck ow cfg ((R % 2 ^ lw + 1) % 2 ^ lw) ((C % 2 ^ lw + 1) % 2 ^ lw) (N % 2 ^ ow)
      (cooOf lw cfg wk.wgt (Spec.entriesOf entry body)) := by
  obtain ⟨hh, hv, hn⟩ := readMmHeader_eq hpad h lw ow
  unfold LoadMm ReadMm at hrun
  rw [hh] at hrun
  obtain ⟨o, ho, rfl⟩ := hrun
  have hlast : Spec.ints (body.getLast h.body_ne) = [] := hok.last _ (List.getLast?_eq_some_getLast h.body_ne)
  have hfm : body.dropLast.filterMap (entOf lw entry) = Spec.entriesOf entry body := by
    rw [filterMap_entOf]
    have : body.dropLast.filterMap (fun l => if Spec.ints l = [] then none else entry l) = Spec.entriesOf entry body := by
      unfold Spec.entriesOf
      conv => rhs; rw [← List.dropLast_concat_getLast h.body_ne]
      rw [List.filterMap_append]
      simp [hlast]
    rw [this, map_modL_id hlab]
  have st : ElState μ μ.bytes.length body.dropLast (body.getLast h.body_ne) :=
    ⟨hv, by unfold Readable; omega, fun l hl => hn l (List.dropLast_subset _ hl), hn _ (List.getLast_mem _),
      (firstIntL_nil_iff _ (hn _ (List.getLast_mem _))).mpr hlast⟩
  have hent : ∀ l ∈ body.dropLast, EntOk lw wk (entOf lw entry) l := by
    intro l hl
    have hlb := List.dropLast_subset _ hl
    refine ⟨hn l hlb, ?_⟩
    unfold entOf
    by_cases hi : Spec.ints l = []
    · rw [if_pos hi]; exact (firstIntL_nil_iff l (hn l hlb)).mpr hi
    · rw [if_neg hi]
      rcases hok.line l hlb with hc | hc
      · exact absurd hc hi
      · obtain ⟨en, hen⟩ := Option.isSome_iff_exists.mp hc
        rw [hen]
        refine hf l (hn l hlb) en hen (hwp en ?_)
        unfold Spec.entriesOf
        rw [List.mem_filterMap]
        exact ⟨l, hlb, by rw [if_neg hi, hen]⟩
  rw [← hfm] at hd hm ⊢
  rw [readEl_first cfg hT st hent hd hm o ho]
  rfl

theorem loadMm_exists {μ : Mapping} {lw ow : Nat} {wk : WKind W} (cfg : Cfg) (T : Nat) (j : Junk W) :
    ∃ out, LoadMm μ lw ow cfg wk T out := by
  unfold LoadMm ReadMm
  cases readMmHeader μ lw ow (fileReader μ) with
  | error f => exact ⟨_, rfl⟩
  | ok q =>
    obtain ⟨o, ho⟩ := readEl_exists (μ := μ) (lw := lw) (ow := ow) (wk := wk) cfg (T := T) q.2.2.2 j
    exact ⟨_, o, ho, rfl⟩

end Pigo
