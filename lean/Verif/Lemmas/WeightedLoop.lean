import Verif.Lemmas.WeightedAny

/-!
# The loops of the loader over a weighted region, without flags
-/

namespace Pigo

variable {W : Type} {μ : Mapping} {e : Nat}

/-- The stores for a list of entries from position `b` on. -/
def entActs : Nat → List (Nat × Nat × W) → List (Act W)
  | _, [] => []
  | b, (x, y, w) :: es => .setW b w :: .setX b x :: .setY b y :: entActs (b + 1) es

/-- The store of a torn entry. -/
def tornAct (b : Nat) : Option W → List (Act W)
  | none => []
  | some w => [.setW b w]

theorem countEntryPlain_any (hr : Readable μ e) {s : List Byte} (v : View μ e s) (pos : Nat) :
    countEntryPlain μ pos (rd e s) = .ok (if nextIntL s = [] then (pos, rd e []) else (pos + 1, rd e (nextLineL (nextIntL s)))) := by
  have v2 : View μ e (nextIntL s) := v.of_suffix (nextIntL_suffix _)
  have v3 : View μ e (eolL (nextIntL s)) := v2.of_suffix (dropWhile_suffix' _ _)
  simp only [countEntryPlain, moveToNextInt_eq v hr, ok_bind, good_rd v2]
  by_cases h : nextIntL s = []
  · simp [h]
  · have h' : (nextIntL s).isEmpty = false := by simpa using h
    simp only [h', Bool.not_false, Bool.not_true, Bool.false_eq_true, if_false, if_neg h, moveToEol_eq v2, ok_bind, moveToNextInt_eq v3 hr]

theorem setEntryPlain_any {lw : Nat} {wk : WKind W} {wv : List Byte → W} {ws : List Byte → List Byte} (hw : AnyW μ wk wv ws) (he : EndB μ e)
    {s : List Byte} (v : View μ e s) (st : SetSt W) :
    setEntryPlain μ lw wk st (rd e s) = .ok (if ws (preW s) = [] then ({ st with acts := st.acts ++ [.setW st.pos (wv (preW s))] }, rd e []) else
      ({ pos := st.pos + 1, mr := upd st.mr (numAt lw s), mc := upd st.mc (numAt lw (nextIntL (afterNum s))),
         acts := st.acts ++ [.setW st.pos (wv (preW s)), .setX st.pos (numAt lw s), .setY st.pos (numAt lw (nextIntL (afterNum s)))] },
        rd e (nextLineL (ws (preW s))))) := by
  have hr := he.readable
  have v1 : View μ e (afterNum s) := v.of_suffix (toDigitL_suffix _)
  have v2 : View μ e (nextIntL (afterNum s)) := v1.of_suffix (nextIntL_suffix _)
  have v3 : View μ e (preW s) := v2.of_suffix (toDigitL_suffix _)
  have v4 : View μ e (ws (preW s)) := v3.of_suffix (hw.suffix _)
  have v5 : View μ e (eolL (ws (preW s))) := v4.of_suffix (dropWhile_suffix' _ _)
  have h1 : readInt μ (wrapU lw) (rd e s) = .ok (numAt lw s, rd e (afterNum s)) := readInt_wrapU lw v
  have h2 : readInt μ (wrapU lw) (rd e (nextIntL (afterNum s))) = .ok (numAt lw (nextIntL (afterNum s)), rd e (preW s)) := readInt_wrapU lw v2
  simp only [setEntryPlain, setWgt, h1, ok_bind, moveToNextInt_eq v1 hr, h2, hw.read v3 he, hw.wgt, if_true, good_rd v4]
  by_cases h : ws (preW s) = []
  · simp [h]
  · have h' : (ws (preW s)).isEmpty = false := by simpa using h
    simp only [h', Bool.not_false, Bool.not_true, Bool.false_eq_true, if_false, if_neg h, moveToEol_eq v4, ok_bind, moveToNextInt_eq v5 hr,
      List.append_assoc, List.cons_append, List.nil_append]

theorem countLoop_w {lw : Nat} {cfg : Cfg} (hp : cfg.plain = true) {wk : WKind W} (hr : Readable μ e) : ∀ (n : Nat) (s : List Byte), s.length ≤ n → View μ e s →
    AtNum s → ∀ pos, whileGood (countEntry μ lw cfg wk) n pos (rd e s) = .ok (pos + cScan n s, rd e [])
  | 0, s, h, v, _, pos => by
    have : s = [] := List.length_eq_zero_iff.mp (by omega)
    subst this
    simp [whileGood, good_rd v, cScan]
  | n+1, s, h, v, hd, pos => by
    rw [whileGood, good_rd v, cScan]
    by_cases hs : s = []
    · simp [hs]
    · have h' : s.isEmpty = false := by simpa using hs
      simp only [h', Bool.not_false, if_true, if_neg hs]
      rw [show countEntry μ lw cfg wk = fun pos r => countEntryPlain μ pos r from by funext pos r; simp only [countEntry, if_pos hp]]
      simp only
      rw [countEntryPlain_any hr v]
      have h1 := nextInt_short hd hs
      have h2 := (nextLineL_suffix (nextIntL s)).length_le
      by_cases hn : nextIntL s = []
      · have v0 : View μ e [] := v.of_suffix List.nil_suffix
        simp only [if_pos hn, ok_bind]
        cases n <;> simp [whileGood, good_rd v0]
      · simp only [if_neg hn, ok_bind]
        have := countLoop_w (lw := lw) hp (wk := wk) hr n (nextLineL (nextIntL s)) (by omega)
          (v.of_suffix ((nextLineL_suffix _).trans (nextIntL_suffix _))) (atNum_nextLine _) (pos + 1)
        rw [show countEntry μ lw cfg wk = fun pos r => countEntryPlain μ pos r from by funext pos r; simp only [countEntry, if_pos hp]] at this
        rw [this, Nat.add_assoc, Nat.add_comm 1]

theorem setLoop_w {lw : Nat} {cfg : Cfg} (hp : cfg.plain = true) {wk : WKind W} {wv : List Byte → W} {ws : List Byte → List Byte} (hw : AnyW μ wk wv ws)
    (he : EndB μ e) : ∀ (n : Nat) (s : List Byte), s.length ≤ n → View μ e s → AtNum s → ∀ st : SetSt W,
    whileGood (setEntry μ lw cfg wk) n st (rd e s) = .ok
      ({ pos := st.pos + (wScan lw wv ws n s).1.length
         mr := (wScan lw wv ws n s).1.foldl (fun a t => upd a t.1) st.mr
         mc := (wScan lw wv ws n s).1.foldl (fun a t => upd a t.2.1) st.mc
         acts := st.acts ++ (entActs st.pos (wScan lw wv ws n s).1 ++ tornAct (st.pos + (wScan lw wv ws n s).1.length) (wScan lw wv ws n s).2) }, rd e [])
  | 0, s, h, v, _, st => by
    have : s = [] := List.length_eq_zero_iff.mp (by omega)
    subst this
    simp [whileGood, good_rd v, wScan, entActs, tornAct]
  | n+1, s, h, v, hd, st => by
    rw [whileGood, good_rd v, wScan]
    by_cases hs : s = []
    · simp [hs, entActs, tornAct]
    · have h' : s.isEmpty = false := by simpa using hs
      simp only [h', Bool.not_false, if_true, if_neg hs]
      rw [show setEntry μ lw cfg wk = fun st r => setEntryPlain μ lw wk st r from by funext st r; simp only [setEntry, if_pos hp]]
      simp only
      rw [setEntryPlain_any hw he v]
      have h1 := nextInt_short hd hs
      have h0 : ws (preW s) <:+ nextIntL s := (hw.suffix _).trans (preW_suffix hd)
      have h2 := (nextLineL_suffix (ws (preW s))).length_le
      have h3 := h0.length_le
      by_cases hn : ws (preW s) = []
      · have v0 : View μ e [] := v.of_suffix List.nil_suffix
        simp only [if_pos hn, ok_bind]
        cases n <;> simp [whileGood, good_rd v0, entActs, tornAct]
      · simp only [if_neg hn, ok_bind]
        have := setLoop_w (lw := lw) hp hw he n (nextLineL (ws (preW s))) (by omega)
          (v.of_suffix ((nextLineL_suffix _).trans (h0.trans (nextIntL_suffix _)))) (atNum_nextLine _)
        rw [show setEntry μ lw cfg wk = fun st r => setEntryPlain μ lw wk st r from by funext st r; simp only [setEntry, if_pos hp]] at this
        rw [this]
        simp only [entActs, List.length_cons, List.foldl_cons, List.append_assoc, List.cons_append, List.nil_append, Nat.add_assoc, Nat.add_comm 1]

/-! ## All threads -/

/-- How many entries pass 1 of thread `tid` counts. -/
def cPart (s : List Byte) (T tid : Nat) : Nat := cScan (regL s T tid).length (regL s T tid)

/-- What pass 2 of thread `tid` finds. -/
def wPart (lw : Nat) (wv : List Byte → W) (ws : List Byte → List Byte) (s : List Byte) (T tid : Nat) : List (Nat × Nat × W) × Option W :=
  wScan lw wv ws (regL s T tid).length (regL s T tid)

/-- Entries of the threads before `tid`. -/
def cStart (s : List Byte) (T tid : Nat) : Nat := ((List.range tid).map (cPart s T)).sum

theorem cStart_succ (s : List Byte) (T tid : Nat) : cStart s T (tid+1) = cStart s T tid + cPart s T tid := by
  simp [cStart, List.range_succ]

theorem cStart_mono (s : List Byte) (T : Nat) {a b : Nat} (h : a ≤ b) : cStart s T a ≤ cStart s T b := by
  induction b with
  | zero => rw [show a = 0 by omega]; exact Nat.le_refl _
  | succ b ih =>
    rcases Nat.eq_or_lt_of_le h with rfl | h
    · exact Nat.le_refl _
    · rw [cStart_succ]; have := ih (by omega); omega

theorem atNum_regL (s : List Byte) (T tid : Nat) : AtNum (regL s T tid) := by
  intro c t h
  unfold regL at h
  have hne : startL s T tid ≠ [] := by intro hh; rw [hh] at h; simp at h
  obtain ⟨d, u, hdu⟩ := List.exists_cons_of_ne_nil hne
  have := startL_digit d u hdu
  rw [hdu] at h
  cases hk : (d :: u).length - (startL s T (tid+1)).length with
  | zero => rw [hk] at h; simp at h
  | succ q =>
    rw [hk, List.take_succ_cons] at h
    injection h with h _
    rw [← h]; exact this

/-- The entries fit in the file. -/
theorem cStart_le (s : List Byte) (T : Nat) : ∀ tid, cStart s T tid + (startL s T tid).length ≤ s.length
  | 0 => by
    have : cStart s T 0 = 0 := rfl
    rw [this, Nat.zero_add]
    exact (startL_suffix s T 0).length_le
  | tid+1 => by
    have h1 := cStart_le s T tid
    have h2 := regL_length s T tid
    have h3 : cPart s T tid ≤ (regL s T tid).length := cScan_le _ _ (atNum_regL s T tid)
    rw [cStart_succ]
    omega

/-- The state of thread `tid` after pass 2. -/
def wState (lw : Nat) (wv : List Byte → W) (ws : List Byte → List Byte) (s : List Byte) (T tid : Nat) : SetSt W :=
  { pos := cStart s T tid + (wPart lw wv ws s T tid).1.length
    mr := (wPart lw wv ws s T tid).1.foldl (fun a t => upd a t.1) 0
    mc := (wPart lw wv ws s T tid).1.foldl (fun a t => upd a t.2.1) 0
    acts := entActs (cStart s T tid) (wPart lw wv ws s T tid).1 ++ tornAct (cStart s T tid + (wPart lw wv ws s T tid).1.length) (wPart lw wv ws s T tid).2 }

/-- The byte behind the region of a thread. -/
theorem region_end {s : List Byte} (v : View μ e s) (he : EndB μ e) {T tid : Nat} (ht : tid < T) : EndB μ (e - (startL s T (tid+1)).length) := by
  obtain ⟨R, h1, _⟩ := elRegion_any v he.readable ht
  have vs : View μ e (startL s T tid) := by
    refine v.of_suffix ?_
    unfold startL
    split
    · exact toStop_suffix _ _ _
    · exact (toStop_suffix _ _ _).trans ((dropWhile_suffix' _ _).trans ((dropWhile_suffix' _ _).trans (List.drop_suffix _ _)))
  rw [h1] at vs
  have v2 := vs.append
  cases hs : startL s T (tid+1) with
  | nil => simpa using he
  | cons c t =>
    rw [hs] at v2
    exact ⟨c, v2.get_cons, .inl (startL_digit c t hs)⟩

/-- What `COO::read_el_` with weights and without flags does on any text at all. -/
theorem readElPlan_w {s : List Byte} (v : View μ e s) (he : EndB μ e) {lw ow T : Nat} {cfg : Cfg} (hp : cfg.plain = true) {wk : WKind W}
    {wv : List Byte → W} {ws : List Byte → List Byte} (hw : AnyW μ wk wv ws) (hT : 0 < T) :
    readElPlan μ lw ow cfg wk T (rd e s) = .ok
      { m := cStart s T T % 2 ^ ow
        threads := (List.range T).map (fun tid => (wState lw wv ws s T tid).acts)
        mr := ((List.range T).map (wState lw wv ws s T)).foldl (fun a st => max a st.mr) 0
        mc := ((List.range T).map (wState lw wv ws s T)).foldl (fun a st => max a st.mc) 0 } := by
  have hr := he.readable
  have hreg : mapE (elRegion μ (rd e s) T) (List.range T) =
      .ok ((List.range T).map (fun tid => rd (e - (startL s T (tid+1)).length) (regL s T tid))) :=
    mapE_ok _ _ _ (fun tid ht => by
      obtain ⟨R, h1, h2, _⟩ := elRegion_any v hr (List.mem_range.mp ht)
      rw [h2]
      have : regL s T tid = R := by unfold regL; rw [h1]; simp
      rw [this])
  have hv : ∀ tid, tid < T → View μ (e - (startL s T (tid+1)).length) (regL s T tid) ∧ Readable μ (e - (startL s T (tid+1)).length) := by
    intro tid ht
    obtain ⟨R, h1, _, h3, h4⟩ := elRegion_any v hr ht
    have : regL s T tid = R := by unfold regL; rw [h1]; simp
    rw [this]; exact ⟨h3, h4⟩
  have hcount : mapE (elCount μ lw cfg wk) ((List.range T).map (fun tid => rd (e - (startL s T (tid+1)).length) (regL s T tid))) =
      .ok ((List.range T).map (cPart s T)) := by
    apply mapE_map
    intro tid ht
    obtain ⟨v', r'⟩ := hv tid (List.mem_range.mp ht)
    rw [elCount, v'.sub, countLoop_w hp r' _ _ (Nat.le_refl _) v' (atNum_regL s T tid), ok_bind, Nat.zero_add]
    rfl
  have hset : mapE (elSet μ lw cfg wk (prefixSums 0 ((List.range T).map (cPart s T)))) ((List.range T).zip
        ((List.range T).map (fun tid => rd (e - (startL s T (tid+1)).length) (regL s T tid)))) =
      .ok ((List.range T).map (wState lw wv ws s T)) := by
    rw [zip_map_self]
    apply mapE_map
    intro tid ht
    have htT := List.mem_range.mp ht
    obtain ⟨v', r'⟩ := hv tid htT
    rw [elSet]
    simp only
    rw [v'.sub, setLoop_w hp hw (region_end v he htT) _ _ (Nat.le_refl _) v' (atNum_regL s T tid), ok_bind]
    rcases prefixSums_sum (cPart s T) T tid (by omega) with h | h
    · simp only [h, List.nil_append]; rfl
    · omega
  unfold readElPlan
  simp only [ok_bind, hreg, hcount, hset, elPlan, List.map_map]
  congr 2
  rw [prefixSums_getD _ _ _ (by simp; omega)]
  rw [show T - 1 + 1 = T by omega, List.take_of_length_le (by simp), Nat.zero_add]
  rfl

end Pigo
