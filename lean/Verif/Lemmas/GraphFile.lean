import Verif.Lemmas.GraphTokens
import Verif.Lemmas.Prefix
import Verif.Lemmas.Alloc

/-!
# `read_graph_` on comment-free text
-/

namespace Pigo

variable {μ : Mapping} {e : Nat}

/-! ## Pass 2 -/

/-- The stores of pass 2 for the tokens `ts`, from `offset_pos = off` and `endpoint_pos = ep`. -/
def tokActs (lw n : Nat) : Nat → Nat → List Tok → List GAct
  | _, _, [] => []
  | off, ep, .nl :: ts => if off < n then .inl (off + 1, ep) :: tokActs lw n (off + 1) ep ts else []
  | off, ep, .int r :: ts => if off < n then .inr (ep, decVal r % 2 ^ lw) :: tokActs lw n off (ep + 1) ts else []

/-- The maximum of the stored labels. -/
def tokMax (lw n : Nat) : Nat → Nat → List Tok → Nat
  | _, mx, [] => mx
  | off, mx, .nl :: ts => if off < n then tokMax lw n (off + 1) mx ts else mx
  | off, mx, .int r :: ts => if off < n then tokMax lw n off (max mx (decVal r % 2 ^ lw)) ts else mx

theorem tokActs_stop {lw n off : Nat} (h : ¬ off < n) (ep : Nat) (ts : List Tok) : tokActs lw n off ep ts = [] := by
  cases ts with
  | nil => rfl
  | cons t ts => cases t <;> simp [tokActs, h]

theorem tokMax_stop {lw n off : Nat} (h : ¬ off < n) (mx : Nat) (ts : List Tok) : tokMax lw n off mx ts = mx := by
  cases ts with
  | nil => rfl
  | cons t ts => cases t <;> simp [tokMax, h]

theorem nlsOf_nl (ts : List Tok) : nlsOf (.nl :: ts) = nlsOf ts + 1 := by simp [nlsOf]
theorem nlsOf_int (r : List Byte) (ts : List Tok) : nlsOf (.int r :: ts) = nlsOf ts := by simp [nlsOf]
theorem runsOf_nl (ts : List Tok) : runsOf (.nl :: ts) = runsOf ts := rfl
theorem runsOf_int (r : List Byte) (ts : List Tok) : runsOf (.int r :: ts) = r :: runsOf ts := rfl
theorem nlsOf_append (a b : List Tok) : nlsOf (a ++ b) = nlsOf a + nlsOf b := by simp [nlsOf]
theorem runsOf_append (a b : List Tok) : runsOf (a ++ b) = runsOf a ++ runsOf b := by simp [runsOf]

theorem tokActs_append (lw n : Nat) (a b : List Tok) : ∀ off ep,
    tokActs lw n off ep (a ++ b) = tokActs lw n off ep a ++ tokActs lw n (off + nlsOf a) (ep + (runsOf a).length) b := by
  induction a with
  | nil => intro off ep; simp [tokActs, nlsOf, runsOf]
  | cons t a ih =>
    intro off ep
    by_cases h : off < n
    · cases t with
      | nl =>
        simp only [List.cons_append, tokActs, if_pos h, ih, nlsOf_nl, runsOf_nl]
        rw [show off + 1 + nlsOf a = off + (nlsOf a + 1) from by omega]
      | int r =>
        simp only [List.cons_append, tokActs, if_pos h, ih, nlsOf_int, runsOf_int, List.length_cons]
        rw [show ep + 1 + (runsOf a).length = ep + ((runsOf a).length + 1) from by omega]
    · rw [tokActs_stop h, tokActs_stop h, tokActs_stop (by omega)]; rfl

theorem tokMax_append (lw n : Nat) (a b : List Tok) : ∀ off mx,
    tokMax lw n off mx (a ++ b) = tokMax lw n (off + nlsOf a) (tokMax lw n off mx a) b := by
  induction a with
  | nil => intro off mx; simp [tokMax, nlsOf]
  | cons t a ih =>
    intro off mx
    by_cases h : off < n
    · cases t with
      | nl =>
        simp only [List.cons_append, tokMax, if_pos h, ih, nlsOf_nl]
        rw [show off + 1 + nlsOf a = off + (nlsOf a + 1) from by omega]
      | int r => simp only [List.cons_append, tokMax, if_pos h, ih, nlsOf_int]
    · rw [tokMax_stop h, tokMax_stop h, tokMax_stop (by omega)]

theorem tokMax_init (lw n : Nat) (a : List Tok) : ∀ off mx, tokMax lw n off mx a = max mx (tokMax lw n off 0 a) := by
  induction a with
  | nil => intro off mx; simp [tokMax]
  | cons t a ih =>
    intro off mx
    by_cases h : off < n
    · cases t with
      | nl => simp only [tokMax, if_pos h]; exact ih _ _
      | int r =>
        simp only [tokMax, if_pos h]
        rw [ih off (max mx _), ih off (max 0 _)]
        omega
    · rw [tokMax_stop h, tokMax_stop h]; omega

theorem graphSkip_eq {u : List Byte} (v : View μ e u) (hn : NoCom u) (ha : After μ e u) (hd : ∀ c t, u = c :: t → isDigit c = false) :
    graphSkip μ (rd e u) = .ok (rd e (u.dropWhile skipB)) := by
  cases u with
  | nil => simp [graphSkip, atNlOrEol, rd]
  | cons c t =>
    rw [graphSkip, atNlOrEol_eq v, ok_bind, hn c (by simp)]
    have hdc := hd c t rfl
    by_cases hx : c = nl
    · subst hx; simp [skipB]
    · have : (c == nl) = false := by simpa using hx
      simp only [this, Bool.or_false, Bool.false_eq_true, if_false]
      rw [moveToNextIntOrNl_eq v hn ha, nextTokL, if_neg (by simp [hdc]), if_neg (by simp [this])]

theorem set_tokens {lw ow n : Nat} : ∀ (k : Nat) (s : List Byte) (st : GSt), View μ e s → NoCom s → After μ e s → AtTok s →
    s.length ≤ k → st.off + nlsOf (tk [] s) < 2 ^ lw → st.ep + (runsOf (tk [] s)).length < 2 ^ ow →
    ∃ st', graphSetN μ lw ow n k st (rd e s) = .ok st' ∧ st'.acts = st.acts ++ tokActs lw n st.off st.ep (tk [] s) ∧
      st'.mx = tokMax lw n st.off st.mx (tk [] s) := by
  intro k
  induction k with
  | zero =>
    intro s st v hn ha ht hl _ _
    have : s = [] := List.length_eq_zero_iff.mp (by omega)
    subst this
    exact ⟨st, by simp [graphSetN, good_rd v], by simp [tk, flush, tokActs], by simp [tk, flush, tokMax]⟩
  | succ k ih =>
    intro s st v hn ha ht hl ho hi
    cases s with
    | nil => exact ⟨st, by simp [graphSetN, good_rd v], by simp [tk, flush, tokActs], by simp [tk, flush, tokMax]⟩
    | cons b t =>
      by_cases hoff : st.off < n
      · have hsuf := nextTokL_suffix b t ht
        have hsuf' := hsuf.trans (List.suffix_cons b t)
        have hlen := hsuf.length_le
        have hcom : isCom b = false := hn b (by simp)
        rw [graphSetN, good_rd v]
        simp only [List.isEmpty_cons, Bool.not_false, Bool.true_and, decide_eq_true_eq, if_pos hoff]
        rw [graphSet, atNlOrEol_eq v, ok_bind]
        rw [tk_next b t ht] at ho hi ⊢
        by_cases hd : isDigit b = true
        · have hb : (b == nl) = false := by simpa using isDigit_ne_nl hd
          rw [if_pos hd, nlsOf_int] at ho
          rw [if_pos hd, runsOf_int, List.length_cons] at hi
          simp only [hb, hcom, Bool.or_false, Bool.false_eq_true, if_false, hd, if_true]
          have hdig : toDigitL (b :: t) = b :: t := by simp [toDigitL, hd]
          have sd := dropWhile_suffix' isDigit (b :: t)
          have hnt : nextTokL (b :: t) = ((b :: t).dropWhile isDigit).dropWhile skipB := by rw [nextTokL, if_pos hd]
          rw [readInt_wrapU lw v, ok_bind, hdig]
          simp only
          rw [graphSkip_eq (v.of_suffix sd) (hn.suffix sd) (ha.suffix sd) (dropWhile_head _ _), ok_bind, ← hnt]
          simp only [Nat.mod_eq_of_lt (show st.ep + 1 < 2 ^ ow by omega), ok_bind]
          obtain ⟨st', h1, h2, h3⟩ := ih (nextTokL (b :: t))
            { off := st.off, ep := st.ep + 1, mx := max st.mx (decVal ((b :: t).takeWhile isDigit) % 2 ^ lw),
              acts := st.acts ++ [.inr (st.ep, decVal ((b :: t).takeWhile isDigit) % 2 ^ lw)] }
            (v.of_suffix hsuf') (hn.suffix hsuf') (ha.suffix hsuf') (atTok_next _) (by simp at hl; omega) ho (by simp only; omega)
          refine ⟨st', h1, ?_, ?_⟩
          · rw [h2, tokActs, if_pos hoff, List.append_assoc]; rfl
          · rw [h3, tokMax, if_pos hoff]
        · have hb : b = nl := by
            have := ht b t rfl
            simpa [hd] using this
          subst hb
          rw [if_neg hd, nlsOf_nl] at ho
          rw [if_neg hd, runsOf_nl] at hi
          simp only [beq_self_eq_true, Bool.true_or, if_true, hd, Bool.false_eq_true, if_false]
          rw [moveToNextIntOrNl_eq v hn ha]
          simp only [ok_bind, Nat.mod_eq_of_lt (show st.off + 1 < 2 ^ lw by omega)]
          obtain ⟨st', h1, h2, h3⟩ := ih (nextTokL (nl :: t))
            { st with off := st.off + 1, acts := st.acts ++ [.inl (st.off + 1, st.ep)] }
            (v.of_suffix hsuf') (hn.suffix hsuf') (ha.suffix hsuf') (atTok_next _) (by simp at hl; omega) (by simp only; omega) hi
          refine ⟨st', h1, ?_, ?_⟩
          · rw [h2, tokActs, if_pos hoff, List.append_assoc]; rfl
          · rw [h3, tokMax, if_pos hoff]
      · refine ⟨st, ?_, by rw [tokActs_stop hoff, List.append_nil], by rw [tokMax_stop hoff]⟩
        rw [graphSetN]; simp [hoff]

/-! ## Regions -/

theorem firstIntL_noCom : ∀ {s : List Byte}, NoCom s → firstIntL s = s.dropWhile (fun b => !isDigit b)
  | [], _ => by simp [toStop]
  | c :: s, h => by
    unfold firstIntL
    rw [toStop.eq_3, List.dropWhile_cons]
    have hc : isCom c = false := h c (by simp)
    simp only [hc, Bool.false_eq_true, if_false]
    cases hd : isDigit c with
    | true => simp
    | false =>
      simp only [Bool.false_eq_true, if_false, Bool.not_false, if_true]
      exact firstIntL_noCom (fun x hx => h x (List.mem_cons_of_mem _ hx))

theorem nextIntL_noCom {s : List Byte} (h : NoCom s) : nextIntL s = (s.dropWhile isDigit).dropWhile (fun b => !isDigit b) := by
  unfold nextIntL
  exact firstIntL_noCom (h.suffix (dropWhile_suffix' _ _))

theorem nextIntL_suffix (s : List Byte) : nextIntL s <:+ s := (toStop_suffix _ _ _).trans (dropWhile_suffix' _ _)

theorem nextIntL_mono {s : List Byte} (h : NoCom s) : ∀ {t : List Byte}, t <:+ s → nextIntL t <:+ nextIntL s := by
  induction s with
  | nil =>
    intro t ht
    have : t = [] := by simpa using ht
    subst this; exact List.suffix_refl _
  | cons c s ih =>
    intro t ht
    rcases List.suffix_cons_iff.mp ht with rfl | ht
    · exact List.suffix_refl _
    · have hs : NoCom s := fun x hx => h x (List.mem_cons_of_mem _ hx)
      refine (ih hs ht).trans ?_
      rw [nextIntL_noCom h, nextIntL_noCom hs, List.dropWhile_cons]
      cases hd : isDigit c with
      | true => simp
      | false =>
        simp only [Bool.false_eq_true, if_false]
        rw [List.dropWhile_cons]
        simp only [hd, Bool.not_false, if_true]
        cases s with
        | nil => simp
        | cons d s =>
          cases hdd : isDigit d with
          | true =>
            rw [List.dropWhile_cons (p := fun b => !isDigit b)]
            simp only [hdd, Bool.not_true, Bool.false_eq_true, if_false]
            exact (dropWhile_suffix' _ _).trans (dropWhile_suffix' _ _)
          | false => rw [List.dropWhile_cons, hdd]; simp

/-- `X` starts at an integer of `s` (or at its beginning or end): what precedes it does not end in a digit. -/
def Cut (s X : List Byte) : Prop := ∃ P, s = P ++ X ∧ (EndsNd P ∨ X = [])

theorem drop_nondigit_ends (s : List Byte) : ∃ P, s = P ++ s.dropWhile (fun b => !isDigit b) ∧ ∀ c ∈ P, isDigit c = false := by
  refine ⟨s.takeWhile (fun b => !isDigit b), by rw [List.takeWhile_append_dropWhile], ?_⟩
  intro c hc
  have := List.all_eq_true.mp (List.all_takeWhile (p := fun b => !isDigit b) (l := s)) c hc
  simpa using this

theorem endsNd_of_all {P : List Byte} (h : ∀ c ∈ P, isDigit c = false) : EndsNd P := by
  rcases List.eq_nil_or_concat P with rfl | ⟨p, c, rfl⟩
  · left; rfl
  · right; rw [List.concat_eq_append] at h ⊢; exact ⟨p, c, rfl, h c (by simp)⟩

/-- Skipping an integer and then to the next one ends after a non-digit. -/
theorem nextIntL_ends {s : List Byte} (h : NoCom s) : ∃ P, s = P ++ nextIntL s ∧ (nextIntL s = [] ∨ ∃ p c, P = p ++ [c] ∧ isDigit c = false) := by
  rw [nextIntL_noCom h]
  obtain ⟨P, hP, hPd⟩ := drop_nondigit_ends (s.dropWhile isDigit)
  refine ⟨s.takeWhile isDigit ++ P, ?_, ?_⟩
  · rw [List.append_assoc, ← hP, List.takeWhile_append_dropWhile]
  · rcases List.eq_nil_or_concat P with rfl | ⟨p, c, rfl⟩
    · left
      rw [List.nil_append] at hP
      cases hu : (s.dropWhile isDigit).dropWhile (fun b => !isDigit b) with
      | nil => rfl
      | cons c t =>
        have h1 := dropWhile_head _ _ c t hu
        rw [← hP] at hu
        have h2 := dropWhile_head _ _ c t hu
        rw [h2] at h1
        cases h1
    · right
      rw [List.concat_eq_append] at hPd
      exact ⟨s.takeWhile isDigit ++ p, c, by rw [List.concat_eq_append, List.append_assoc], hPd c (by simp)⟩

theorem cut_nextIntL {s : List Byte} (h : NoCom s) (k : Nat) : Cut s (nextIntL (s.drop k)) := by
  obtain ⟨P, hP, hc⟩ := nextIntL_ends (h.suffix (List.drop_suffix k s))
  refine ⟨s.take k ++ P, ?_, ?_⟩
  · rw [List.append_assoc, ← hP, List.take_append_drop]
  · rcases hc with h | ⟨p, c, rfl, hc⟩
    · right; exact h
    · left; right; exact ⟨s.take k ++ p, c, by rw [List.append_assoc], hc⟩

/-- The text from the start of thread `tid` on. -/
def startText (s : List Byte) (T tid : Nat) : List Byte :=
  if tid = 0 then s else if tid < T then nextIntL (s.drop (cut s.length T tid)) else []

theorem startText_cut {s : List Byte} (h : NoCom s) (T tid : Nat) : Cut s (startText s T tid) := by
  unfold startText
  split
  · exact ⟨[], rfl, Or.inl (Or.inl rfl)⟩
  · split
    · exact cut_nextIntL h _
    · exact ⟨s, by simp, Or.inr rfl⟩

theorem startText_mono {s : List Byte} (h : NoCom s) (T tid : Nat) : startText s T (tid + 1) <:+ startText s T tid := by
  by_cases h0 : tid = 0
  · subst h0
    rw [startText, if_neg (by omega), startText, if_pos rfl]
    split
    · exact (nextIntL_suffix _).trans (List.drop_suffix _ _)
    · simp
  · by_cases h1 : tid + 1 < T
    · rw [startText, if_neg (by omega), if_pos h1, startText, if_neg h0, if_pos (by omega)]
      apply nextIntL_mono (h.suffix (List.drop_suffix _ _))
      have := cut_mono s.length T (show tid ≤ tid + 1 by omega)
      rw [show cut s.length T (tid + 1) = cut s.length T tid + (cut s.length T (tid + 1) - cut s.length T tid) from by omega,
        ← List.drop_drop]
      exact List.drop_suffix _ _
    · rw [startText, if_neg (by omega), if_neg h1]; simp

/-- The text of thread `tid`. -/
def regionText (s : List Byte) (T tid : Nat) : List Byte :=
  (startText s T tid).take ((startText s T tid).length - (startText s T (tid + 1)).length)

theorem regionText_spec {s : List Byte} (h : NoCom s) (T tid : Nat) :
    startText s T tid = regionText s T tid ++ startText s T (tid + 1) := by
  obtain ⟨p, hp⟩ := startText_mono h T tid
  have hl := congrArg List.length hp
  simp only [List.length_append] at hl
  have : regionText s T tid = p := by
    unfold regionText
    rw [show (startText s T tid).length - (startText s T (tid + 1)).length = p.length from by omega, ← hp]
    simp
  rw [this, hp]

theorem cut_suffix {s X G : List Byte} (hc : Cut s X) (hs : (G ++ X) <:+ s) : EndsNd G ∨ X = [] := by
  obtain ⟨P, hP, hE | hX⟩ := hc
  · left
    obtain ⟨Q, hQ⟩ := hs
    rw [hP, ← List.append_assoc] at hQ
    obtain ⟨h1, _⟩ := List.append_inj' hQ rfl
    exact hE.suffix ⟨Q, h1⟩
  · exact Or.inr hX

theorem startText_suffix {s : List Byte} (h : NoCom s) (T tid : Nat) : startText s T tid <:+ s := by
  obtain ⟨P, hP, _⟩ := startText_cut h T tid
  exact ⟨P, hP.symm⟩

theorem regionText_ends {s : List Byte} (h : NoCom s) (T tid : Nat) : EndsNd (regionText s T tid) ∨ startText s T (tid + 1) = [] := by
  apply cut_suffix (startText_cut h T (tid + 1))
  rw [← regionText_spec h]
  exact startText_suffix h T tid

/-- The tokens of the file are those of the regions, one after the other. -/
theorem tk_regions {s : List Byte} (h : NoCom s) (T : Nat) (k : Nat) :
    tk [] s = ((List.range k).map (fun tid => tk [] (regionText s T tid))).flatten ++ tk [] (startText s T k) := by
  induction k with
  | zero => simp [startText]
  | succ k ih =>
    rw [List.range_succ, List.map_append, List.flatten_append, ih, regionText_spec h T k, tk_append (regionText_ends h T k)]
    simp

theorem tk_all_regions {s : List Byte} (h : NoCom s) {T : Nat} (hT : 0 < T) :
    ((List.range T).map (fun tid => tk [] (regionText s T tid))).flatten = tk [] s := by
  rw [tk_regions h T T, startText, if_neg (by omega), if_neg (by omega)]
  simp [tk, flush]

theorem atTok_firstInt {s : List Byte} (h : AtTok s) (hn : NoCom s) (hd : ∀ c t, s = c :: t → isDigit c = true) : firstIntL s = s := by
  rw [firstIntL_noCom hn]
  cases s with
  | nil => rfl
  | cons c t => rw [List.dropWhile_cons]; simp [hd c t rfl]

theorem nextIntL_head (s : List Byte) : ∀ c t, nextIntL s = c :: t → isDigit c = true :=
  fun c t h => (toStop_head isDigit false _ c t h).1

/-- The state after the header: comment-free text starting with an integer, at the end of a padded file. -/
structure GState (μ : Mapping) (e : Nat) (s : List Byte) : Prop where
  view : View μ e s
  pad : 0 < μ.pad
  eof : e = μ.bytes.length
  nocom : NoCom s
  head : ∀ c t, s = c :: t → isDigit c = true

theorem GState.rdb {s : List Byte} (g : GState μ e s) : Readable μ e := by
  have := g.pad; have := g.eof; unfold Readable; omega

theorem graphRegion_eq {s : List Byte} (g : GState μ e s) {T tid : Nat} (hT : tid < T) :
    graphRegion μ (rd e s) T tid = .ok (rd (e - (startText s T (tid + 1)).length) (regionText s T tid)) ∧
    View μ (e - (startText s T (tid + 1)).length) (regionText s T tid) ∧ NoCom (regionText s T tid) ∧
    After μ (e - (startText s T (tid + 1)).length) (regionText s T tid) ∧ AtTok (regionText s T tid) := by
  have hn := g.nocom
  have k1 := cut_le s.length T tid (by omega)
  have k2 := cut_le s.length T (tid + 1) (by omega)
  have hspec := regionText_spec hn T tid
  have hview : View μ e (regionText s T tid ++ startText s T (tid + 1)) := by
    rw [← hspec]; exact g.view.of_suffix (startText_suffix hn T tid)
  have he : moveToNextInt μ ((rd e s).plus ((tid + 1) * (rd e s).size / T)) = .ok (rd e (startText s T (tid + 1))) := by
    rw [size_rd g.view, show (tid + 1) * s.length / T = cut s.length T (tid + 1) from rfl, plus_rd g.view k2,
      moveToNextInt_eq (g.view.of_suffix (List.drop_suffix _ _)) g.rdb, startText, if_neg (by omega)]
    split
    · rfl
    · have : tid + 1 = T := by omega
      rw [this, cut_last _ _ (by omega), List.drop_length]; rfl
  have hs : graphStart μ ((rd e s).plus (tid * (rd e s).size / T)) tid = .ok (rd e (startText s T tid)) := by
    rw [size_rd g.view, show tid * s.length / T = cut s.length T tid from rfl, plus_rd g.view k1, graphStart]
    by_cases h0 : tid = 0
    · subst h0
      rw [if_neg (by simp), startText, if_pos rfl, show cut s.length T 0 = 0 from by simp [cut], List.drop_zero,
        moveToFirstInt_eq g.view g.rdb]
      congr 2
      rw [firstIntL_noCom hn]
      cases s with
      | nil => rfl
      | cons c t => rw [List.dropWhile_cons]; simp [g.head c t rfl]
    · rw [if_pos h0, startText, if_neg h0, if_pos hT]
      exact moveToNextInt_eq (g.view.of_suffix (List.drop_suffix _ _)) g.rdb
  have hhead : ∀ c t, startText s T tid = c :: t → isDigit c = true := by
    intro c t
    unfold startText
    split
    · exact g.head c t
    · exact nextIntL_head _ c t
  refine ⟨?_, hview.shrink, ?_, ?_, ?_⟩
  · rw [graphRegion, he, ok_bind, hs, ok_bind, hspec, smallerEnd_rd hview]
  · intro c hc
    apply hn
    apply (startText_suffix hn T tid).subset
    rw [hspec]; exact List.mem_append_left _ hc
  · -- what follows
    cases hX : startText s T (tid + 1) with
    | nil =>
      refine ⟨0, ?_, by decide, ?_⟩
      · rw [List.length_nil, Nat.sub_zero]
        exact Mapping.get_pad _ (by rw [g.eof]; exact Nat.le_refl _) (by rw [g.eof]; have := g.pad; omega)
      · intro h; exact absurd h (by decide)
    | cons c X =>
      have hv := g.view.of_suffix (startText_suffix hn T (tid + 1))
      rw [hX] at hv
      refine ⟨c, hv.get_cons, ?_, ?_⟩
      · apply hn
        apply (startText_suffix hn T (tid + 1)).subset
        rw [hX]; simp
      · intro _
        rcases regionText_ends hn T tid with h | h
        · exact h
        · rw [hX] at h; cases h
  · intro c t hc
    rw [hc] at hspec
    have := hhead c (t ++ startText s T (tid + 1)) hspec
    simp [this]

/-! ## The plan -/

theorem mapE_states {α : Type} {f : α → M GSt} {A : α → List GAct} {X : α → Nat} : ∀ {l : List α},
    (∀ a ∈ l, ∃ b, f a = .ok b ∧ b.acts = A a ∧ b.mx = X a) →
    ∃ bs, mapE f l = .ok bs ∧ bs.map (·.acts) = l.map A ∧ bs.map (·.mx) = l.map X
  | [], _ => ⟨[], rfl, rfl, rfl⟩
  | a :: l, h => by
    obtain ⟨b, h1, h2, h3⟩ := h a (by simp)
    obtain ⟨bs, h4, h5, h6⟩ := mapE_states (l := l) (fun x hx => h x (List.mem_cons_of_mem _ hx))
    refine ⟨b :: bs, by rw [mapE, h1, ok_bind, h4]; rfl, ?_, ?_⟩
    · rw [List.map_cons, List.map_cons, h2, h5]
    · rw [List.map_cons, List.map_cons, h3, h6]

theorem mapE_comp {α β γ : Type} (f : β → M γ) (h : α → β) : ∀ l : List α, mapE f (l.map h) = mapE (fun a => f (h a)) l
  | [] => rfl
  | a :: l => by simp only [List.map_cons, mapE, mapE_comp f h l]

/-- The tokens of the regions before thread `k`. -/
def before (s : List Byte) (T k : Nat) : List Tok := ((List.range k).map (fun tid => tk [] (regionText s T tid))).flatten

theorem before_succ (s : List Byte) (T k : Nat) : before s T (k + 1) = before s T k ++ tk [] (regionText s T k) := by
  simp [before, List.range_succ]

theorem nls_before (s : List Byte) (T k : Nat) :
    ((List.range k).map (fun tid => nlsOf (tk [] (regionText s T tid)))).sum = nlsOf (before s T k) := by
  induction k with
  | zero => simp [before, nlsOf]
  | succ k ih => rw [List.range_succ, List.map_append, List.sum_append, ih, before_succ, nlsOf_append]; simp

theorem ints_before (s : List Byte) (T k : Nat) :
    ((List.range k).map (fun tid => (runsOf (tk [] (regionText s T tid))).length)).sum = (runsOf (before s T k)).length := by
  induction k with
  | zero => simp [before, runsOf]
  | succ k ih => rw [List.range_succ, List.map_append, List.sum_append, ih, before_succ, runsOf_append]; simp

theorem acts_before (lw n base : Nat) (s : List Byte) (T k : Nat) :
    ((List.range k).map (fun tid => tokActs lw n (base + nlsOf (before s T tid)) (runsOf (before s T tid)).length
      (tk [] (regionText s T tid)))).flatten = tokActs lw n base 0 (before s T k) := by
  induction k with
  | zero => simp [before, tokActs]
  | succ k ih =>
    rw [List.range_succ, List.map_append, List.flatten_append, ih, before_succ, tokActs_append]; simp

theorem max_before (lw n base : Nat) (s : List Byte) (T k : Nat) :
    ((List.range k).map (fun tid => tokMax lw n (base + nlsOf (before s T tid)) 0 (tk [] (regionText s T tid)))).foldl max 0 =
      tokMax lw n base 0 (before s T k) := by
  induction k with
  | zero => simp [before, tokMax]
  | succ k ih =>
    rw [List.range_succ, List.map_append, List.foldl_append, ih, before_succ, tokMax_append, tokMax_init lw n _ _ (tokMax lw n base 0 _)]
    simp

theorem zero_before (s : List Byte) (T k : Nat) :
    ((List.range k).any (fun tid => zeroIn (tk [] (regionText s T tid)))) = zeroIn (before s T k) := by
  induction k with
  | zero => simp [before, zeroIn]
  | succ k ih =>
    rw [List.range_succ, List.any_append, ih, before_succ]
    simp [zeroIn]

/-- `have_zero ? 0 : 1` -/
def baseOf (ts : List Tok) : Nat := if zeroIn ts then 0 else 1

theorem graphPlan_eq {lw ow T : Nat} (hT : 0 < T) {r : Reader} {rn rm : Nat} {s : List Byte}
    (hh : graphHeader μ lw ow r = .ok (rn, rm, rd e s)) (g : GState μ e s)
    (hn : baseOf (tk [] s) + nlsOf (tk [] s) < 2 ^ lw) (hm : (runsOf (tk [] s)).length < 2 ^ ow) :
    ∃ threads : List (List GAct), graphPlan μ lw ow T r = .ok
        { readN := rn, readM := rm, n := baseOf (tk [] s) + nlsOf (tk [] s), m := (runsOf (tk [] s)).length
          base := baseOf (tk [] s), threads := threads
          colMax := tokMax lw (baseOf (tk [] s) + nlsOf (tk [] s)) (baseOf (tk [] s)) 0 (tk [] s) } ∧
      threads.flatten = tokActs lw (baseOf (tk [] s) + nlsOf (tk [] s)) (baseOf (tk [] s)) 0 (tk [] s) ∧
      threads = (List.range T).map (fun tid => tokActs lw (baseOf (tk [] s) + nlsOf (tk [] s)) (baseOf (tk [] s) + nlsOf (before s T tid))
        (runsOf (before s T tid)).length (tk [] (regionText s T tid))) := by
  have hall : before s T T = tk [] s := tk_all_regions g.nocom hT
  have hreg : mapE (graphRegion μ (rd e s) T) (List.range T) =
      .ok ((List.range T).map (fun tid => rd (e - (startText s T (tid + 1)).length) (regionText s T tid))) :=
    mapE_ok _ _ _ (fun tid ht => (graphRegion_eq g (List.mem_range.mp ht)).1)
  have hcnt : mapE (graphCountAll μ) ((List.range T).map (fun tid => rd (e - (startText s T (tid + 1)).length) (regionText s T tid))) =
      .ok ((List.range T).map (fun tid => (⟨nlsOf (tk [] (regionText s T tid)), (runsOf (tk [] (regionText s T tid))).length,
        zeroIn (tk [] (regionText s T tid))⟩ : GCount))) := by
    apply mapE_map_ok
    intro tid ht
    obtain ⟨_, h2, h3, h4, h5⟩ := graphRegion_eq g (List.mem_range.mp ht)
    rw [graphCountAll, h2.sub, count_tokens _ _ _ h2 h3 h4 h5 (Nat.le_refl _)]
    simp
  have hz : ((List.range T).map (fun tid => (⟨nlsOf (tk [] (regionText s T tid)), (runsOf (tk [] (regionText s T tid))).length,
        zeroIn (tk [] (regionText s T tid))⟩ : GCount))).any (·.zero) = zeroIn (tk [] s) := by
    rw [List.any_map, ← hall, ← zero_before]; rfl
  have hbase : (if zeroIn (tk [] s) = true then 0 else 1) = baseOf (tk [] s) := rfl
  generalize hb : baseOf (tk [] s) = base at *
  have hnl : ∀ k, k < T → (prefixSums base ((List.range T).map (fun tid => nlsOf (tk [] (regionText s T tid))))).getD k 0 =
      base + nlsOf (before s T (k + 1)) := by
    intro k hk
    rw [prefixSums_getD _ _ _ (by simpa using hk), ← List.map_take, List.take_range, Nat.min_eq_left (by omega), nls_before]
  have hin : ∀ k, k < T → (prefixSums 0 ((List.range T).map (fun tid => (runsOf (tk [] (regionText s T tid))).length))).getD k 0 =
      (runsOf (before s T (k + 1))).length := by
    intro k hk
    rw [prefixSums_getD _ _ _ (by simpa using hk), ← List.map_take, List.take_range, Nat.min_eq_left (by omega), ints_before, Nat.zero_add]
  have hlen : ∀ k, k ≤ T → nlsOf (before s T k) + nlsOf (tk [] (startText s T k)) = nlsOf (tk [] s) ∧
      (runsOf (before s T k)).length + (runsOf (tk [] (startText s T k))).length = (runsOf (tk [] s)).length := by
    intro k _
    have := tk_regions g.nocom T k
    rw [this, nlsOf_append, runsOf_append, List.length_append]
    exact ⟨rfl, rfl⟩
  have hreglen : ∀ k, k < T → nlsOf (before s T k) + nlsOf (tk [] (regionText s T k)) ≤ nlsOf (tk [] s) ∧
      (runsOf (before s T k)).length + (runsOf (tk [] (regionText s T k))).length ≤ (runsOf (tk [] s)).length := by
    intro k hk
    have h1 := hlen (k + 1) (by omega)
    rw [before_succ, nlsOf_append, runsOf_append, List.length_append] at h1
    omega
  obtain ⟨sts, h1, h2, h3⟩ := mapE_states
    (f := fun tid => graphSetAll μ lw ow (base + nlsOf (tk [] s)) base
      (prefixSums base ((List.range T).map (fun tid => nlsOf (tk [] (regionText s T tid)))))
      (prefixSums 0 ((List.range T).map (fun tid => (runsOf (tk [] (regionText s T tid))).length)))
      (tid, rd (e - (startText s T (tid + 1)).length) (regionText s T tid)))
    (A := fun tid => tokActs lw (base + nlsOf (tk [] s)) (base + nlsOf (before s T tid)) (runsOf (before s T tid)).length
      (tk [] (regionText s T tid)))
    (X := fun tid => tokMax lw (base + nlsOf (tk [] s)) (base + nlsOf (before s T tid)) 0 (tk [] (regionText s T tid)))
    (l := List.range T) (by
      intro tid ht
      have ht' := List.mem_range.mp ht
      obtain ⟨_, h2, h3, h4, h5⟩ := graphRegion_eq g ht'
      have hl := hreglen tid ht'
      have e1 : (if tid > 0 then (prefixSums base ((List.range T).map (fun tid => nlsOf (tk [] (regionText s T tid))))).getD (tid - 1) 0 else base) % 2 ^ lw
          = base + nlsOf (before s T tid) := by
        split
        · rw [hnl _ (by omega), show tid - 1 + 1 = tid from by omega, Nat.mod_eq_of_lt (by omega)]
        · rw [show tid = 0 from by omega, Nat.mod_eq_of_lt (by omega)]; simp [before, nlsOf]
      have e2 : (if tid > 0 then (prefixSums 0 ((List.range T).map (fun tid => (runsOf (tk [] (regionText s T tid))).length))).getD (tid - 1) 0 else 0) % 2 ^ ow
          = (runsOf (before s T tid)).length := by
        split
        · rw [hin _ (by omega), show tid - 1 + 1 = tid from by omega, Nat.mod_eq_of_lt (by omega)]
        · rw [show tid = 0 from by omega]; simp [before, runsOf]
      obtain ⟨st', a1, a2, a3⟩ := set_tokens (lw := lw) (ow := ow) (n := base + nlsOf (tk [] s)) _ _
        { off := base + nlsOf (before s T tid), ep := (runsOf (before s T tid)).length, mx := 0, acts := [] } h2 h3 h4 h5
        (Nat.le_refl _) (by simp only; omega) (by simp only; omega)
      refine ⟨st', ?_, a2, a3⟩
      unfold graphSetAll
      simp only
      rw [e1, e2, h2.sub, a1])
  refine ⟨sts.map (·.acts), ?_, ?_, h2⟩
  · rw [graphPlan, hh, ok_bind]
    simp only [hreg, ok_bind, hcnt]
    rw [hz, hbase, List.map_map, List.map_map]
    have hm1 : (GCount.nls ∘ fun tid => (⟨nlsOf (tk [] (regionText s T tid)), (runsOf (tk [] (regionText s T tid))).length,
        zeroIn (tk [] (regionText s T tid))⟩ : GCount)) = fun tid => nlsOf (tk [] (regionText s T tid)) := rfl
    have hm2 : (GCount.ints ∘ fun tid => (⟨nlsOf (tk [] (regionText s T tid)), (runsOf (tk [] (regionText s T tid))).length,
        zeroIn (tk [] (regionText s T tid))⟩ : GCount)) = fun tid => (runsOf (tk [] (regionText s T tid))).length := rfl
    rw [hm1, hm2, hnl (T - 1) (by omega), hin (T - 1) (by omega), show T - 1 + 1 = T from by omega, hall,
      Nat.mod_eq_of_lt hn, Nat.mod_eq_of_lt hm, zip_map_self]
    have hmm : mapE (graphSetAll μ lw ow (base + nlsOf (tk [] s)) base
      (prefixSums base ((List.range T).map (fun tid => nlsOf (tk [] (regionText s T tid)))))
      (prefixSums 0 ((List.range T).map (fun tid => (runsOf (tk [] (regionText s T tid))).length))))
      ((List.range T).map (fun a => (a, rd (e - (startText s T (a + 1)).length) (regionText s T a)))) = .ok sts := by
      rw [← h1, mapE_comp]
    rw [hmm, ok_bind]
    congr 2
    have : sts.foldl (fun a s => max a s.mx) 0 = (sts.map (·.mx)).foldl max 0 := by rw [List.foldl_map]
    rw [this, h3, max_before, hall]
  · rw [h2, acts_before, hall]

end Pigo
