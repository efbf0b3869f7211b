import Verif.Lemmas.EdgeExec
import Mathlib.Tactic.Tauto

/-!
# From the text specification to what the scanner needs
-/

namespace Pigo

variable {W : Type}

/-- Labels are reduced to the width of the label type. -/
def modL (lw : Nat) (e : Nat × Nat × W) : Nat × Nat × W := (e.1 % 2 ^ lw, e.2.1 % 2 ^ lw, e.2.2)

/-- What has to be shown for an entry format: the weight reader understands it. -/
def FormatOk (lw : Nat) (wk : WKind W) (entry : List Byte → Option (Nat × Nat × W)) (wp : Nat × Nat × W → Prop) : Prop :=
  ∀ l, nl ∉ l → ∀ en, entry l = some en → wp en → LineLaw lw wk l (modL lw en)

theorem lineLaw_of_ints {lw : Nat} {wk : WKind W} {l : List Byte} (hn : nl ∉ l) {x y : Nat} {t : List Nat} {w : W}
    (h : Spec.ints l = x :: y :: t)
    (hw : nl ∉ (nextIntL (firstIntL l)).dropWhile isDigit →
      Spec.ints ((nextIntL (firstIntL l)).dropWhile isDigit) = t →
      WTail wk ((nextIntL (firstIntL l)).dropWhile isDigit) w) :
    LineLaw lw wk l (x % 2 ^ lw, y % 2 ^ lw, w) := by
  obtain ⟨h1, h2, h3⟩ := ints_cons l hn x _ h
  have n1 : nl ∉ (firstIntL l).dropWhile isDigit := not_mem_dropWhile _ (not_mem_firstInt hn)
  obtain ⟨h4, h5, h6⟩ := ints_cons _ n1 y _ h3
  have n2 : nl ∉ (nextIntL (firstIntL l)).dropWhile isDigit := not_mem_dropWhile _ (not_mem_firstInt n1)
  exact ⟨hn, h1, by rw [h2], h4, by rw [h5], hw n2 h6⟩

theorem format_none (lw : Nat) : FormatOk lw wNone Spec.entry0 (fun _ => True) := by
  intro l hn en he _
  unfold Spec.entry0 Spec.edge at he
  split at he
  · rename_i x y t hx
    simp at he; subst he
    exact lineLaw_of_ints hn hx (fun _ _ μ e rest _ _ =>
      ⟨⟨_, List.suffix_refl _, rfl⟩, ⟨_, List.suffix_refl _, rfl⟩⟩)
  · simp at he

theorem format_uint (lw ww : Nat) :
    FormatOk lw (wUint ww) Spec.entryU (fun en => en.2.2 < 2 ^ ww) := by
  intro l hn en he hlt
  unfold Spec.entryU at he
  split at he
  · rename_i x y w t hx
    simp at he; subst he
    refine lineLaw_of_ints hn hx (fun n2 hints μ e rest v hr => ?_)
    obtain ⟨h1, h2, h3⟩ := ints_cons _ n2 w _ hints
    generalize hu : (nextIntL (firstIntL l)).dropWhile isDigit = u at *
    have hud : u.dropWhile isDigit = u := by rw [← hu, dropWhile_idem]
    have hne : nextIntL u ≠ [] := by unfold nextIntL; rw [hud]; exact h1
    have hmv : moveToNextInt μ (rd e (u ++ nl :: rest)) = .ok (rd e (firstIntL u ++ nl :: rest)) := by
      rw [moveToNextInt_eq v hr, nextIntL_line _ _ n2 hne]; unfold nextIntL; rw [hud]
    have v' : View μ e (firstIntL u ++ nl :: rest) := by
      obtain ⟨q, hq⟩ := toStop_suffix isDigit false u
      refine v.of_suffix ⟨q, ?_⟩
      rw [← List.append_assoc, hq]
    constructor
    · refine ⟨(firstIntL u).dropWhile isDigit, (dropWhile_suffix' _ _).trans (toStop_suffix _ _ _), ?_⟩
      simp only [wUint, hmv, ok_bind]
      rw [readInt_line ww false u _ rest rfl h1 v', ok_bind, ← h2]
      simp only at hlt
      rw [Nat.mod_eq_of_lt hlt]
    · exact ⟨firstIntL u, toStop_suffix _ _ _, hmv⟩
  · simp at he

/-! ### blank separated words -/

theorem isBlank_spec (b : Byte) : Spec.isBlank b = (b == 32 || b == 9 || b == 13) := by
  have : ∀ a : Byte, (b == a) = decide (b.toNat = a.toNat) := by
    intro a
    rw [Bool.eq_iff_iff]
    simp [← UInt8.toNat_inj]
  simp only [Spec.isBlank, Bool.decide_or, this, Bool.or_assoc]
  rfl

theorem blank_cases {b : Byte} (h : Spec.isBlank b = true) : b = 32 ∨ b = 9 ∨ b = 13 := by
  rw [isBlank_spec] at h
  simp at h
  rcases h with (h | h) | h <;> simp [h]

theorem blank_not {b : Byte} (h : Spec.isBlank b = true) :
    isDigit b = false ∧ isCom b = false ∧ isSign b = false ∧ isFp b = false ∧ b ≠ nl := by
  rcases blank_cases h with rfl | rfl | rfl <;> decide

theorem tokens_cons (c t : List Byte) (ts : List (List Byte)) (h : Spec.tokens c = t :: ts) :
    ∃ bl rest, c = bl ++ t ++ rest ∧ (∀ b ∈ bl, Spec.isBlank b = true) ∧ t ≠ [] ∧
      (∀ b ∈ t, Spec.isBlank b = false) ∧ (∀ b r, rest = b :: r → Spec.isBlank b = true) ∧
      Spec.tokens rest = ts := by
  induction c with
  | nil => simp [Spec.tokens] at h
  | cons a c ih =>
    by_cases ha : Spec.isBlank a = true
    · have : Spec.tokens (a :: c) = Spec.tokens c := by
        unfold Spec.tokens
        rw [List.splitOnP_cons_eq_if_modifyHead, if_pos ha]; simp
      rw [this] at h
      obtain ⟨bl, rest, h1, h2, h3, h4, h5, h6⟩ := ih h
      refine ⟨a :: bl, rest, by rw [h1]; rfl, ?_, h3, h4, h5, h6⟩
      intro b hb
      rcases List.mem_cons.mp hb with rfl | hb
      · exact ha
      · exact h2 b hb
    · clear ih
      have hsplit : a :: c = (a :: c).takeWhile (fun b => !Spec.isBlank b) ++
          (a :: c).dropWhile (fun b => !Spec.isBlank b) := (List.takeWhile_append_dropWhile).symm
      generalize htk : (a :: c).takeWhile (fun b => !Spec.isBlank b) = k at hsplit
      generalize hdr : (a :: c).dropWhile (fun b => !Spec.isBlank b) = r at hsplit
      have hk : ∀ b ∈ k, Spec.isBlank b = false := by
        intro b hb
        rw [← htk] at hb
        have := List.all_eq_true.mp (List.all_takeWhile (p := fun b => !Spec.isBlank b)) b hb
        simpa using this
      have hkne : k ≠ [] := by rw [← htk]; simp [ha]
      have hr : ∀ b r', r = b :: r' → Spec.isBlank b = true := by
        intro b r' hb
        have := List.head?_dropWhile_not (p := fun b => !Spec.isBlank b) (l := a :: c)
        rw [hdr, hb] at this
        simpa using this
      have htok : Spec.tokens (k ++ r) = k :: Spec.tokens r := by
        unfold Spec.tokens
        cases r with
        | nil =>
          rw [List.append_nil, List.splitOnP_eq_singleton hk]
          simp [hkne]
        | cons b r =>
          rw [List.splitOnP_append_cons_of_forall_mem hk b (hr b r rfl), List.filter_cons,
            if_pos (by simp [hkne]), List.splitOnP_cons_eq_if_modifyHead, if_pos (hr b r rfl)]
          simp
      rw [hsplit, htok] at h
      injection h with h1 h2
      subst h1
      exact ⟨[], r, by simpa using hsplit, by simp, hkne, hk, hr, h2⟩

theorem strip_append (l : List Byte) : ∃ com, l = Spec.stripComment l ++ com ∧
    (∀ b r, com = b :: r → isCom b = true) := by
  refine ⟨l.dropWhile (fun b => !Spec.isComment b), (List.takeWhile_append_dropWhile).symm, ?_⟩
  intro b r h
  have := List.head?_dropWhile_not (p := fun b => !Spec.isComment b) (l := l)
  rw [h] at this
  rw [← isCom_spec]
  simpa using this

/-- Skipping blanks to a stop character. -/
theorem toStop_blanks (stop : Byte → Bool) (hs : ∀ b, Spec.isBlank b = true → stop b = false) (bl s : List Byte)
    (h : ∀ b ∈ bl, Spec.isBlank b = true) : toStop stop false (bl ++ s) = toStop stop false s := by
  induction bl with
  | nil => rfl
  | cons a bl ih =>
    have ha := h a (List.mem_cons_self ..)
    have := blank_not ha
    rw [List.cons_append, toStop.eq_3, this.2.1, hs a ha]
    simpa using ih (fun b hb => h b (List.mem_cons_of_mem _ hb))

theorem takeWhile_word (P : Byte → Bool) (t r : List Byte) (ht : ∀ b ∈ t, P b = true)
    (hr : ∀ b s, r = b :: s → P b = false) :
    (t ++ r).takeWhile P = t ∧ (t ++ r).dropWhile P = r := by
  induction t with
  | nil =>
    cases r with
    | nil => simp
    | cons b r => simp [hr b r rfl]
  | cons a t ih =>
    have ha := ht a (List.mem_cons_self ..)
    obtain ⟨i1, i2⟩ := ih (fun b hb => ht b (List.mem_cons_of_mem _ hb))
    simp only [List.cons_append, List.takeWhile_cons, List.dropWhile_cons, ha, if_true, i1, i2, and_self]

/-- A line `x y w …` of blank separated words: what the scanner sees. -/
theorem lineLaw_of_tokens {lw : Nat} {wk : WKind W} {l : List Byte} (hn : nl ∉ l) {x y t : List Byte}
    {ts : List (List Byte)} {w : W} (h : Spec.tokens (Spec.stripComment l) = x :: y :: t :: ts)
    (hx : x.all Spec.isDigit = true) (hy : y.all Spec.isDigit = true)
    (hw : ∀ bl r, bl ≠ [] → (∀ b ∈ bl, Spec.isBlank b = true) → (∀ b s, r = b :: s → Spec.isBlank b = true ∨ isCom b = true) →
      t ≠ [] → (∀ b ∈ t, isCom b = false) → nl ∉ bl ++ t ++ r → WTail wk (bl ++ t ++ r) w) :
    LineLaw lw wk l (Spec.decimal x % 2 ^ lw, Spec.decimal y % 2 ^ lw, w) := by
  obtain ⟨com, hl, hcom⟩ := strip_append l
  obtain ⟨b1, r1, e1, p1, q1, _, s1, t1⟩ := tokens_cons _ _ _ h
  obtain ⟨b2, r2, e2, p2, q2, _, s2, t2⟩ := tokens_cons _ _ _ t1
  obtain ⟨b3, r3, e3, p3, q3, _, s3, t3⟩ := tokens_cons _ _ _ t2
  have hxd : ∀ b ∈ x, isDigit b = true := by
    intro b hb; rw [← isDigit_spec]; exact List.all_eq_true.mp hx b hb
  have hyd : ∀ b ∈ y, isDigit b = true := by
    intro b hb; rw [← isDigit_spec]; exact List.all_eq_true.mp hy b hb
  have bd : ∀ b, Spec.isBlank b = true → isDigit b = false := fun b hb => (blank_not hb).1
  have first : ∀ (bl d s : List Byte), (∀ b ∈ bl, Spec.isBlank b = true) → d ≠ [] → (∀ b ∈ d, isDigit b = true) →
      firstIntL (bl ++ (d ++ s)) = d ++ s := by
    intro bl d s hbl hd hdd
    unfold firstIntL
    rw [toStop_blanks isDigit bd bl _ hbl]
    cases d with
    | nil => exact absurd rfl hd
    | cons a d =>
      have ha := hdd a (List.mem_cons_self ..)
      rw [List.cons_append, toStop.eq_3, isDigit_not_com ha, ha]; simp
  have stopd : ∀ (r : List Byte), (∀ b s, r = b :: s → Spec.isBlank b = true) →
      ∀ b s, r ++ com = b :: s → isDigit b = false := by
    intro r hr b s hs
    cases r with
    | nil => exact isCom_not_digit (hcom b s hs)
    | cons c r =>
      rw [List.cons_append] at hs
      injection hs with hs1 hs2; subst hs1
      exact bd _ (hr _ _ rfl)
  have hl1 : l = b1 ++ (x ++ (r1 ++ com)) := by rw [hl, e1]; simp
  have f1 : firstIntL l = x ++ (r1 ++ com) := by rw [hl1]; exact first b1 x _ p1 q1 hxd
  obtain ⟨k1, k2⟩ := takeWhile_word isDigit x (r1 ++ com) hxd (stopd r1 s1)
  have f2 : nextIntL (firstIntL l) = y ++ (r2 ++ com) := by
    unfold nextIntL
    rw [f1, k2, e2, show b2 ++ y ++ r2 ++ com = b2 ++ (y ++ (r2 ++ com)) by simp]
    exact first b2 y _ p2 q2 hyd
  obtain ⟨k3, k4⟩ := takeWhile_word isDigit y (r2 ++ com) hyd (stopd r2 s2)
  refine ⟨hn, by rw [f1]; simp [q1], ?_, by rw [f2]; simp [q2], ?_, ?_⟩
  · rw [f1, k1]; simp only [decimal_eq]
  · rw [f2, k3]; simp only [decimal_eq]
  · rw [f2, k4, show r2 ++ com = b3 ++ t ++ (r3 ++ com) by rw [e3]; simp]
    have hsub : ∀ b ∈ Spec.stripComment l, isCom b = false := by
      intro b hb
      have := List.all_eq_true.mp (List.all_takeWhile (p := fun b => !Spec.isComment b)) b hb
      rw [← isCom_spec]; simpa using this
    apply hw
    · -- the word `y` is separated from `t` by blanks
      intro hb3
      subst hb3
      rw [List.nil_append] at e3
      cases t with
      | nil => exact q3 rfl
      | cons a t =>
        have h1 := s2 a (t ++ r3) (by rw [e3]; rfl)
        obtain ⟨_, _, _, _, _, h4, _, _⟩ := tokens_cons _ _ _ t2
        have h2 := h4 a (List.mem_cons_self ..)
        rw [h1] at h2; cases h2
    · exact p3
    · intro b s hbs
      cases r3 with
      | nil => exact .inr (hcom b s hbs)
      | cons c r =>
        rw [List.cons_append] at hbs
        injection hbs with hs1 hs2; subst hs1
        exact .inl (s3 _ _ rfl)
    · exact q3
    · intro b hb
      exact hsub b (by rw [e1, e2, e3]; simp [hb])
    · intro hm
      apply hn
      rw [hl1, e2, e3]
      simp only [List.mem_append] at hm ⊢
      tauto

end Pigo
