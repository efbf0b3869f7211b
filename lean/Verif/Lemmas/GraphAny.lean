import Verif.Lemmas.GraphLoad
import Verif.Lemmas.Robust

/-!
# `read_graph_` on arbitrary bytes

The lemmas of `GraphTokens` … `GraphLoad` are for bodies without comment characters; here the two passes are followed on any
text.  `nextL` is the list effect of `move_to_next_int_or_nl`.
-/

namespace Pigo

/-- `s` is empty or its last byte is not a comment sign. -/
def EndsNC (s : List Byte) : Prop := ∀ c, s.getLast? = some c → isCom c = false

theorem EndsNC.suffix {s t : List Byte} (h : EndsNC s) (ht : t <:+ s) : EndsNC t := by
  obtain ⟨p, rfl⟩ := ht
  intro c hc
  apply h
  rw [List.getLast?_append, hc]; rfl

/-- The suffix of `s` that is one byte longer than what remains after its comment: where `skip_comments(); --d;` ends. -/
def backL (s : List Byte) : List Byte := s.drop (s.length - ((skipIfComL s).length + 1))

theorem backL_suffix (s : List Byte) : backL s <:+ s := List.drop_suffix _ _

/-- The list effect of the end of `move_to_next_int_or_nl`. -/
def restL : List Byte → List Byte
  | [] => []
  | c :: u => if isCom c then backL (c :: u) else if isDigit c || c == nl then c :: u else restL u

/-- The list effect of `move_to_next_int_or_nl`. -/
def nextL (s : List Byte) : List Byte :=
  match s.dropWhile isDigit with
  | [] => []
  | c :: u => if c == nl then (if s.head?.any isDigit then c :: u else restL u) else restL (c :: u)

theorem restL_suffix : ∀ s, restL s <:+ s
  | [] => by simp [restL]
  | c :: u => by
    rw [restL]; split
    · exact backL_suffix _
    · split
      · exact List.suffix_refl _
      · exact (restL_suffix u).trans (List.suffix_cons _ _)

theorem nextL_suffix (s : List Byte) : nextL s <:+ s := by
  have h := dropWhile_suffix' isDigit s
  unfold nextL
  split
  · exact List.nil_suffix
  · rename_i c u hs
    rw [hs] at h
    split
    · split
      · exact h
      · exact (restL_suffix u).trans ((List.suffix_cons _ _).trans h)
    · exact (restL_suffix _).trans h

theorem skipLineL_before : ∀ s : List Byte, skipLineL s = [] ∨ ∃ p, s = p ++ nl :: skipLineL s
  | [] => .inl rfl
  | c :: s => by
    rw [skipLineL]
    split
    · rename_i h
      exact .inr ⟨[], by rw [beq_iff_eq.mp h]; rfl⟩
    · rcases skipLineL_before s with h | ⟨p, h⟩
      · exact .inl h
      · exact .inr ⟨c :: p, by rw [List.cons_append, ← h]⟩

theorem skipComL_before : ∀ (n : Nat) (s : List Byte), skipComL n s = s ∨ skipComL n s = [] ∨ ∃ p, s = p ++ nl :: skipComL n s
  | 0, s => .inl rfl
  | n+1, [] => .inl rfl
  | n+1, c :: s => by
    rw [skipComL]
    split
    · rcases skipLineL_before (c :: s) with h | ⟨p, h⟩
      · right; left
        rw [h]
        cases n <;> rfl
      · rcases skipComL_before n (skipLineL (c :: s)) with h1 | h1 | ⟨q, h1⟩
        · right; right; rw [h1]; exact ⟨p, h⟩
        · right; left; exact h1
        · right; right
          refine ⟨p ++ nl :: q, ?_⟩
          rw [List.append_assoc, List.cons_append, ← h1]; exact h
    · left; rfl

/-- A place where the passes stop: the end, a digit, a newline, a comment sign, or the last byte. -/
def Pos : List Byte → Prop
  | [] => True
  | c :: u => isDigit c = true ∨ c = nl ∨ isCom c = true ∨ u = []

theorem skipIfComL_lt {c : Byte} {u : List Byte} (hc : isCom c = true) (hu : u ≠ []) : (skipIfComL (c :: u)).length < u.length := by
  unfold skipIfComL
  rw [List.length_cons, skipComL, if_pos hc]
  have h1 := (skipComL_suffix u.length (skipLineL (c :: u))).length_le
  have hne : (c == nl) = false := by
    cases h : (c == nl) with
    | false => rfl
    | true => rw [beq_iff_eq] at h; subst h; exact absurd hc (by decide)
  have h2 : skipLineL (c :: u) = skipLineL u := by rw [skipLineL, hne]; rfl
  rw [h2] at h1 ⊢
  cases u with
  | nil => exact absurd rfl hu
  | cons a u => have := skipLineL_length_lt a u; simp only [List.length_cons] at *; omega

theorem skipIfComL_le {c : Byte} {u : List Byte} (hc : isCom c = true) : (skipIfComL (c :: u)).length ≤ u.length := by
  by_cases hu : u = []
  · subst hu
    unfold skipIfComL
    rw [List.length_cons, skipComL, if_pos hc]
    have := (skipComL_suffix ([] : List Byte).length (skipLineL [c])).length_le
    have := skipLineL_length_lt c []
    omega
  · exact Nat.le_of_lt (skipIfComL_lt hc hu)

theorem backL_length {c : Byte} {u : List Byte} (hc : isCom c = true) : (backL (c :: u)).length = (skipIfComL (c :: u)).length + 1 := by
  have := skipIfComL_le (u := u) hc
  unfold backL
  rw [List.length_drop, List.length_cons]
  omega

theorem backL_lt {c : Byte} {u : List Byte} (hc : isCom c = true) (hu : u ≠ []) : (backL (c :: u)).length ≤ u.length := by
  have := skipIfComL_lt hc hu
  rw [backL_length hc]
  omega

theorem suffix_eq {s a b : List Byte} (ha : a <:+ s) (hb : b <:+ s) (h : a.length = b.length) : a = b := by
  obtain ⟨p, rfl⟩ := ha
  obtain ⟨q, hq⟩ := hb
  exact (List.append_inj_right' hq h.symm).symm

theorem backL_pos {c : Byte} {u : List Byte} (hc : isCom c = true) : Pos (backL (c :: u)) := by
  have hlen := backL_length (u := u) hc
  rcases skipComL_before (c :: u).length (c :: u) with h | h | ⟨p, h⟩
  · have h1 : skipIfComL (c :: u) = c :: u := h
    have h2 := skipIfComL_le (u := u) hc
    rw [h1, List.length_cons] at h2
    omega
  · have h1 : skipIfComL (c :: u) = [] := h
    rw [h1] at hlen
    match hb : backL (c :: u) with
    | [] => trivial
    | [x] => exact .inr (.inr (.inr rfl))
    | x :: y :: z => rw [hb] at hlen; simp at hlen
  · have h1 : nl :: skipIfComL (c :: u) <:+ c :: u := ⟨p, h.symm⟩
    have h2 : backL (c :: u) = nl :: skipIfComL (c :: u) :=
      suffix_eq (backL_suffix _) h1 (by rw [hlen, List.length_cons])
    rw [h2]
    exact .inr (.inl rfl)

theorem restL_pos : ∀ s, Pos (restL s)
  | [] => trivial
  | c :: u => by
    rw [restL]; split
    · rename_i h; exact backL_pos h
    · split
      · rename_i h
        rcases Bool.or_eq_true _ _ ▸ h with h | h
        · exact .inl h
        · exact .inr (.inl (beq_iff_eq.mp h))
      · exact restL_pos u

theorem nextL_pos (s : List Byte) : Pos (nextL s) := by
  unfold nextL
  split
  · trivial
  · split
    · rename_i h
      split
      · exact .inr (.inl (beq_iff_eq.mp h))
      · exact restL_pos _
    · exact restL_pos _

theorem restL_lt {c : Byte} {u : List Byte} (hd : isDigit c = false) (hn : (c == nl) = false) (he : EndsNC (c :: u)) :
    (restL (c :: u)).length ≤ u.length := by
  rw [restL]
  split
  · rename_i hc
    refine backL_lt hc ?_
    rintro rfl
    rw [he c rfl] at hc
    cases hc
  · rw [hd, hn]
    exact (restL_suffix u).length_le

/-- Every step makes progress, except at a comment sign that is the last byte. -/
theorem nextL_lt {c : Byte} {u : List Byte} (he : EndsNC (c :: u)) : (nextL (c :: u)).length ≤ u.length := by
  unfold nextL
  cases hd : isDigit c with
  | true =>
    have hs : (c :: u).dropWhile isDigit = u.dropWhile isDigit := by rw [List.dropWhile_cons, if_pos hd]
    rw [hs]
    have h1 := (dropWhile_suffix' isDigit u)
    split
    · exact Nat.zero_le _
    · rename_i a v hv
      rw [hv] at h1
      have h2 := h1.length_le
      split
      · split
        · exact h2
        · exact Nat.le_trans (restL_suffix v).length_le (by simp at h2; omega)
      · exact Nat.le_trans (restL_suffix _).length_le h2
  | false =>
    have hs : (c :: u).dropWhile isDigit = c :: u := by rw [List.dropWhile_cons, hd]; rfl
    rw [hs]
    simp only [List.head?_cons, Option.any_some, hd, Bool.false_eq_true, if_false]
    split
    · exact (restL_suffix u).length_le
    · rename_i hn
      exact restL_lt hd (by simpa using hn) he

/-! ## The reader -/

variable {μ : Mapping} {e : Nat}

/-- The byte after the region is readable and no comment sign. -/
def TailOk (μ : Mapping) (e : Nat) : Prop := ∃ b, μ.get e = .ok b ∧ isCom b = false

theorem TailOk.readable (h : TailOk μ e) : Readable μ e := by
  obtain ⟨b, hb, _⟩ := h
  unfold Readable
  apply Decidable.byContradiction
  intro hlt
  unfold Mapping.get at hb
  rw [List.getElem?_eq_none (by omega)] at hb
  simp only [if_neg hlt] at hb
  cases hb

theorem skipComments_rd {s : List Byte} (v : View μ e s) : skipComments μ (rd e s) = .ok (rd e (skipIfComL s)) := by
  rw [skipComments, v.sub, skipCommentsN_eq _ _ v (Nat.le_refl _)]; rfl

theorem back_rd {c : Byte} {u : List Byte} (hc : isCom c = true) :
    ({ rd e (skipIfComL (c :: u)) with d := (rd e (skipIfComL (c :: u))).d - 1 } : Reader) = rd e (backL (c :: u)) := by
  unfold rd
  simp only
  rw [backL_length hc, Nat.sub_sub]

theorem intOrNlN_any (ht : TailOk μ e) : ∀ (n : Nat) (s : List Byte), View μ e s → s.length ≤ n →
    (∀ c u, s = c :: u → isCom c = false) → intOrNlN μ n (rd e s) = .ok (rd e (restL s)) := by
  intro n
  induction n with
  | zero =>
    intro s _ hl _
    have : s = [] := List.length_eq_zero_iff.mp (by omega)
    subst this; rfl
  | succ n ih =>
    intro s v hl hc
    cases s with
    | nil => simp [intOrNlN, rd, restL]
    | cons c u =>
      rw [intOrNlN, if_pos v.lt, v.get_d, ok_bind, restL, hc c u rfl]
      simp only [Bool.false_eq_true, if_false]
      split
      · rfl
      · have hadv : (rd e (c :: u)).d + 1 = (rd e u).d := congrArg Reader.d v.adv
        rw [v.adv, hadv]
        cases u with
        | nil =>
          obtain ⟨b, hb, hbc⟩ := ht
          have : μ.get (rd e ([] : List Byte)).d = .ok b := by rw [rd_nil]; exact hb
          rw [this, ok_bind, hbc, if_neg (by simp)]
          exact ih [] v.tail (by simp) (by simp)
        | cons a w =>
          rw [v.tail.get_d, ok_bind]
          cases ha : isCom a with
          | true =>
            rw [if_pos rfl, skipComments_rd v.tail, ok_bind, back_rd ha, restL, if_pos ha]
          | false =>
            rw [if_neg (by simp)]
            exact ih (a :: w) v.tail (by simpa using hl) (by intro c' u' h; injection h with h _; rw [← h]; exact ha)

theorem intOrNlRest_any {s : List Byte} (ht : TailOk μ e) (v : View μ e s) : intOrNlRest μ (rd e s) = .ok (rd e (restL s)) := by
  cases s with
  | nil =>
    obtain ⟨b, hb, hbc⟩ := ht
    have h1 : μ.get (rd e ([] : List Byte)).d = .ok b := by rw [rd_nil]; exact hb
    rw [intOrNlRest, h1, ok_bind, hbc, if_neg (by simp), v.sub]
    rfl
  | cons c u =>
    rw [intOrNlRest, v.get_d, ok_bind]
    cases hc : isCom c with
    | true => rw [if_pos rfl, skipComments_rd v, ok_bind, back_rd hc, restL, if_pos hc]
    | false =>
      rw [if_neg (by simp), v.sub]
      exact intOrNlN_any ht _ _ v (Nat.le_refl _) (by intro c' u' h; injection h with h _; rw [← h]; exact hc)

theorem guarded_rd (P : Byte → Bool) {s : List Byte} (v : View μ e s) : guarded μ P (rd e s) = .ok (s.head?.any P) := by
  cases s with
  | nil => simp [guarded, rd]
  | cons c u => rw [guarded, if_pos v.lt, v.get_d, ok_bind]; rfl

theorem nextIntOrNl_any {s : List Byte} (ht : TailOk μ e) (v : View μ e s) : moveToNextIntOrNl μ (rd e s) = .ok (rd e (nextL s)) := by
  have hs := dropWhile_suffix' isDigit s
  have v1 := v.of_suffix hs
  rw [moveToNextIntOrNl, guarded_rd _ v, ok_bind, moveToNonInt_eq v, ok_bind, guarded_rd _ v1, ok_bind]
  unfold nextL
  cases h : s.dropWhile isDigit with
  | nil =>
    rw [h] at v1
    simp only [List.head?_nil, Option.any_none, Bool.false_and, Bool.false_eq_true, if_false]
    rw [intOrNlRest_any ht v1]; rfl
  | cons c u =>
    rw [h] at v1
    rw [show (c :: u).head?.any (fun x => x == nl) = (c == nl) from rfl]
    simp only
    by_cases hn : (c == nl) = true
    case neg =>
      rw [Bool.eq_false_iff.mpr hn, Bool.false_and, if_neg (by simp), if_neg (by simp), if_neg (by simp)]
      exact intOrNlRest_any ht v1
    case pos =>
      rw [hn, Bool.true_and, if_pos rfl, if_pos rfl]
      split
      · rfl
      · rw [v1.adv]; exact intOrNlRest_any ht v1.tail

theorem atZero_any {s : List Byte} (ht : TailOk μ e) (v : View μ e s) (hs : s ≠ []) : ∃ z, atZero μ (rd e s) = .ok z := by
  cases s with
  | nil => exact absurd rfl hs
  | cons c u =>
    have hl := v.lt
    rw [atZero, if_neg (by omega), v.get_d, ok_bind]
    split
    · exact ⟨_, rfl⟩
    · have h1 : (rd e (c :: u)).d + 1 = (rd e u).d := by
        have := v.adv
        exact congrArg Reader.d this
      obtain ⟨b, hb⟩ := v.tail.get_rd ht.readable
      rw [h1, hb, ok_bind]
      split <;> exact ⟨_, rfl⟩

theorem atNlOrEol_rd {s : List Byte} (v : View μ e s) : atNlOrEol μ (rd e s) = .ok (s.isEmpty || s.head?.any (fun c => c == nl || isCom c)) := by
  cases s with
  | nil => simp [atNlOrEol, rd]
  | cons c u => rw [atNlOrEol_eq v]; simp

/-! ## The two passes -/

/-- A newline or a comment sign: what `at_nl_or_eol` accepts. -/
def nlCom (c : Byte) : Bool := c == nl || isCom c

/-- `Walk s a b`: from `s` the first pass counts `a` newlines and `b` integers. -/
inductive Walk : List Byte → Nat → Nat → Prop
  | nil : Walk [] 0 0
  | nl {c : Byte} {u : List Byte} {a b : Nat} : nlCom c = true → Walk (nextL (c :: u)) a b → Walk (c :: u) (a + 1) b
  | int {c : Byte} {u : List Byte} {a b : Nat} : nlCom c = false → Walk (nextL (c :: u)) a b → Walk (c :: u) a (b + 1)

theorem walk_exists : ∀ (k : Nat) (s : List Byte), s.length ≤ k → EndsNC s → ∃ a b, Walk s a b ∧ a + b ≤ s.length
  | 0, s, h, _ => by
    have : s = [] := List.length_eq_zero_iff.mp (by omega)
    subst this; exact ⟨0, 0, .nil, Nat.le_refl _⟩
  | k+1, [], _, _ => ⟨0, 0, .nil, Nat.le_refl _⟩
  | k+1, c :: u, h, he => by
    have hl := nextL_lt he
    rw [List.length_cons] at h
    obtain ⟨a, b, hw, hab⟩ := walk_exists k (nextL (c :: u)) (by omega) (he.suffix (nextL_suffix _))
    cases hc : nlCom c with
    | true => exact ⟨a + 1, b, .nl hc hw, by rw [List.length_cons]; omega⟩
    | false => exact ⟨a, b + 1, .int hc hw, by rw [List.length_cons]; omega⟩

theorem good_rd' {s : List Byte} (v : View μ e s) : (rd e s).good = !s.isEmpty := good_rd v

/-- Pass 1. -/
theorem count_any (ht : TailOk μ e) : ∀ (k : Nat) (s : List Byte) (a b : Nat) (c : GCount), View μ e s → s.length ≤ k → EndsNC s →
    Walk s a b → ∃ z r, whileGood (graphCount μ) k c (rd e s) = .ok (⟨c.nls + a, c.ints + b, z⟩, r) := by
  intro k
  induction k with
  | zero =>
    intro s a b c v hl _ hw
    have : s = [] := List.length_eq_zero_iff.mp (by omega)
    subst this
    cases hw
    exact ⟨c.zero, rd e [], by simp [whileGood, good_rd v]⟩
  | succ k ih =>
    intro s a b c v hl he hw
    cases s with
    | nil =>
      cases hw
      exact ⟨c.zero, rd e [], by simp [whileGood, good_rd v]⟩
    | cons x u =>
      have hsuf := nextL_suffix (x :: u)
      have hlt := nextL_lt he
      obtain ⟨z, hz⟩ := atZero_any ht v (by simp)
      rw [List.length_cons] at hl
      rw [whileGood, good_rd v, if_pos (by simp), graphCount, atNlOrEol_eq v, ok_bind, hz, ok_bind, nextIntOrNl_any ht v, ok_bind]
      simp only [ok_bind]
      cases hw with
      | nl hx hw =>
        have hx' : (x == nl || isCom x) = true := hx
        obtain ⟨z', r, h⟩ := ih (nextL (x :: u)) _ _ { nls := c.nls + 1, ints := c.ints, zero := c.zero || z }
          (v.of_suffix hsuf) (by omega) (he.suffix hsuf) hw
        refine ⟨z', r, ?_⟩
        rw [if_pos hx']
        simp only at h ⊢
        rw [h, Nat.add_assoc, Nat.add_comm 1]
      | int hx hw =>
        have hx' : (x == nl || isCom x) = false := hx
        obtain ⟨z', r, h⟩ := ih (nextL (x :: u)) _ _ { nls := c.nls, ints := c.ints + 1, zero := c.zero || z }
          (v.of_suffix hsuf) (by omega) (he.suffix hsuf) hw
        refine ⟨z', r, ?_⟩
        rw [if_neg (by rw [hx']; simp)]
        simp only at h ⊢
        rw [h, Nat.add_assoc, Nat.add_comm 1]

theorem nextL_nondigit {c : Byte} {u : List Byte} (hd : isDigit c = false) (hn : (c == nl) = false) : nextL (c :: u) = restL (c :: u) := by
  unfold nextL
  rw [show (c :: u).dropWhile isDigit = c :: u from by rw [List.dropWhile_cons, hd]; rfl]
  simp only [hn, Bool.false_eq_true, if_false]

theorem head_dropDigits (s : List Byte) : ∀ c t, s.dropWhile isDigit = c :: t → isDigit c = false := dropWhile_head _ _

/-- After an integer the second pass is where the first one goes, or at a comment glued to the integer. -/
theorem int_step (ht : TailOk μ e) {c : Byte} {u : List Byte} (v : View μ e (c :: u)) (hp : Pos (c :: u)) (hc : nlCom c = false)
    {a b : Nat} (hw : Walk (nextL (c :: u)) a b) :
    ∃ s2 a2, graphSkip μ (rd e ((toDigitL (c :: u)).dropWhile isDigit)) = .ok (rd e s2) ∧ Walk s2 a2 b ∧ a ≤ a2 ∧
      s2 <:+ u ∧ Pos s2 := by
  have hcn : (c == nl) = false ∧ isCom c = false := by simpa [nlCom] using hc
  cases hd : isDigit c with
  | false =>
    have hu : u = [] := by
      rcases hp with h | h | h | h
      · rw [hd] at h; cases h
      · rw [h] at hcn; simp at hcn
      · rw [hcn.2] at h; cases h
      · exact h
    subst hu
    have h1 : (toDigitL [c]).dropWhile isDigit = [] := by simp [toDigitL, hd]
    have h2 : nextL [c] = [] := by
      rw [nextL_nondigit hd hcn.1, restL, hcn.2, hd, hcn.1]; rfl
    rw [h2] at hw
    rw [h1]
    refine ⟨[], a, ?_, hw, Nat.le_refl _, List.suffix_refl _, trivial⟩
    rw [graphSkip, atNlOrEol_rd v.tail, ok_bind]; rfl
  | true =>
    have h1 : toDigitL (c :: u) = c :: u := by simp [toDigitL, hd]
    have h2 : (c :: u).dropWhile isDigit = u.dropWhile isDigit := by rw [List.dropWhile_cons, if_pos hd]
    have hsu := dropWhile_suffix' isDigit u
    have v1 : View μ e (u.dropWhile isDigit) := v.tail.of_suffix hsu
    have hn : nextL (c :: u) = match u.dropWhile isDigit with
        | [] => []
        | x :: w => if x == nl then x :: w else restL (x :: w) := by
      unfold nextL
      rw [h2]
      split
      · rfl
      · simp [hd]
    rw [h1, h2, graphSkip, atNlOrEol_rd v1, ok_bind]
    cases hs : u.dropWhile isDigit with
    | nil =>
      rw [hs] at hn
      rw [hn] at hw
      exact ⟨[], a, rfl, hw, Nat.le_refl _, List.nil_suffix, trivial⟩
    | cons x w =>
      have hxd := head_dropDigits u x w hs
      rw [hs] at hn hsu v1
      simp only at hn
      rw [show ((x :: w).isEmpty || (x :: w).head?.any (fun c => c == nl || isCom c)) = (x == nl || isCom x) from rfl]
      cases hxn : (x == nl) with
      | true =>
        rw [hxn, if_pos rfl] at hn
        rw [hn] at hw
        exact ⟨x :: w, a, rfl, hw, Nat.le_refl _, hsu, .inr (.inl (beq_iff_eq.mp hxn))⟩
      | false =>
        rw [hxn, if_neg (by simp), ← nextL_nondigit hxd hxn] at hn
        rw [hn] at hw
        cases hxc : isCom x with
        | true =>
          exact ⟨x :: w, a + 1, rfl, .nl (by simp [nlCom, hxc]) hw, by omega, hsu, .inr (.inr (.inl hxc))⟩
        | false =>
          refine ⟨nextL (x :: w), a, ?_, hw, Nat.le_refl _, (nextL_suffix _).trans hsu, nextL_pos _⟩
          rw [Bool.or_false, if_neg (by simp)]
          exact nextIntOrNl_any ht v1

/-- What the second pass of a thread stores: offsets in `(off, n]` with values at most `top`, endpoints in `[ep, top)`, and at
least the offsets up to `off + a`. -/
structure Stores (lw n off ep a top : Nat) (l : List GAct) : Prop where
  offs : ∀ o v, .inl (o, v) ∈ l → off < o ∧ o ≤ n ∧ v ≤ top
  eps : ∀ i v, .inr (i, v) ∈ l → ep ≤ i ∧ i < top ∧ v < 2 ^ lw
  all : ∀ o, off < o → o ≤ off + a → o ≤ n → ∃ v, .inl (o, v) ∈ l

/-- Pass 2. -/
theorem set_any (ht : TailOk μ e) {lw ow n : Nat} (hn : n < 2 ^ lw) : ∀ (k : Nat) (s : List Byte) (a b : Nat) (st : GSt), View μ e s →
    s.length ≤ k → EndsNC s → Pos s → Walk s a b → st.ep + b < 2 ^ ow →
    ∃ st' l, graphSetN μ lw ow n k st (rd e s) = .ok st' ∧ st'.acts = st.acts ++ l ∧ Stores lw n st.off st.ep a (st.ep + b) l := by
  intro k
  induction k with
  | zero =>
    intro s a b st v hl _ _ hw _
    have : s = [] := List.length_eq_zero_iff.mp (by omega)
    subst this
    cases hw
    exact ⟨st, [], by simp [graphSetN, good_rd v], by simp, ⟨by simp, by simp, fun o h1 h2 => by omega⟩⟩
  | succ k ih =>
    intro s a b st v hl he hp hw hep
    cases s with
    | nil =>
      cases hw
      exact ⟨st, [], by simp [graphSetN, good_rd v], by simp, ⟨by simp, by simp, fun o h1 h2 => by omega⟩⟩
    | cons c u =>
      by_cases hoff : st.off < n
      case neg =>
        exact ⟨st, [], by rw [graphSetN]; simp [hoff], by simp, ⟨by simp, by simp, fun o h1 h2 h3 => by omega⟩⟩
      case pos =>
        rw [List.length_cons] at hl
        rw [graphSetN, good_rd v]
        simp only [List.isEmpty_cons, Bool.not_false, Bool.true_and, decide_eq_true_eq, if_pos hoff]
        rw [graphSet, atNlOrEol_eq v, ok_bind]
        cases hw with
        | nl hx hw =>
          have hx' : (c == nl || isCom c) = true := hx
          have hsuf := nextL_suffix (c :: u)
          have hlt := nextL_lt he
          rw [if_pos hx', nextIntOrNl_any ht v]
          simp only [ok_bind, Nat.mod_eq_of_lt (show st.off + 1 < 2 ^ lw by omega)]
          obtain ⟨st', l, h1, h2, h3⟩ := ih (nextL (c :: u)) _ _ { st with off := st.off + 1, acts := st.acts ++ [.inl (st.off + 1, st.ep)] }
            (v.of_suffix hsuf) (by omega) (he.suffix hsuf) (nextL_pos _) hw hep
          refine ⟨st', .inl (st.off + 1, st.ep) :: l, h1, by rw [h2, List.append_assoc]; rfl, ?_⟩
          simp only at h3
          refine ⟨?_, ?_, ?_⟩
          · intro o w h
            rcases List.mem_cons.mp h with h | h
            · injection h with h; injection h with h4 h5; subst h4; subst h5; exact ⟨by omega, by omega, by omega⟩
            · have := h3.offs o w h; exact ⟨by omega, this.2.1, this.2.2⟩
          · intro i w h
            rcases List.mem_cons.mp h with h | h
            · cases h
            · exact h3.eps i w h
          · intro o h4 h5 h6
            by_cases ho : o = st.off + 1
            · subst ho; exact ⟨_, List.mem_cons_self ..⟩
            · obtain ⟨w, hw⟩ := h3.all o (by omega) (by omega) h6
              exact ⟨w, List.mem_cons_of_mem _ hw⟩
        | int hx hw =>
          have hx' : (c == nl || isCom c) = false := hx
          obtain ⟨s2, a2, g1, g2, g3, g4, g5⟩ := int_step ht v hp hx hw
          have g6 := g4.trans (List.suffix_cons c u)
          have g7 := g4.length_le
          rw [hx']
          simp only [Bool.false_eq_true, if_false]
          rw [readInt_wrapU lw v, ok_bind]
          simp only
          rw [g1, ok_bind]
          simp only [Nat.mod_eq_of_lt (show st.ep + 1 < 2 ^ ow by omega), ok_bind]
          obtain ⟨st', l, h1, h2, h3⟩ := ih s2 a2 _
            { off := st.off, ep := st.ep + 1, mx := max st.mx (decVal ((toDigitL (c :: u)).takeWhile isDigit) % 2 ^ lw),
              acts := st.acts ++ [.inr (st.ep, decVal ((toDigitL (c :: u)).takeWhile isDigit) % 2 ^ lw)] }
            (v.of_suffix g6) (by omega) (he.suffix g6) g5 g2 (by simp only; omega)
          refine ⟨st', .inr (st.ep, decVal ((toDigitL (c :: u)).takeWhile isDigit) % 2 ^ lw) :: l, h1,
            by rw [h2, List.append_assoc]; rfl, ?_⟩
          simp only at h3
          refine ⟨?_, ?_, ?_⟩
          · intro o w h
            rcases List.mem_cons.mp h with h | h
            · cases h
            · have := h3.offs o w h; exact ⟨this.1, this.2.1, by omega⟩
          · intro i w h
            rcases List.mem_cons.mp h with h | h
            · injection h with h; injection h with h4 h5; subst h4; subst h5
              exact ⟨by omega, by omega, Nat.mod_lt _ (Nat.two_pow_pos _)⟩
            · have := h3.eps i w h; exact ⟨by omega, by omega, this.2.2⟩
          · intro o h4 h5 h6
            obtain ⟨w, hw⟩ := h3.all o h4 (by omega) h6
            exact ⟨w, List.mem_cons_of_mem _ hw⟩

end Pigo
