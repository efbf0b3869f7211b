import Verif.Lemmas.GraphAny3

/-!
# `read_graph_` on texts in which no comment follows a digit directly

Then the second pass goes where the first one went, and the result does not depend on the schedule.
-/

namespace Pigo

variable {W : Type} {μ : Mapping} {e : Nat}

/-- No digit is directly followed by a comment sign. -/
def NoGlue (s : List Byte) : Prop := ∀ p c d q, s = p ++ c :: d :: q → isDigit c = true → isCom d = false

theorem NoGlue.suffix {s t : List Byte} (h : NoGlue s) (ht : t <:+ s) : NoGlue t := by
  obtain ⟨z, rfl⟩ := ht
  intro p c d q hs
  exact h (z ++ p) c d q (by rw [hs, List.append_assoc])

/-- After digits there is no comment sign. -/
theorem NoGlue.after {c : Byte} {u : List Byte} (h : NoGlue (c :: u)) (hc : isDigit c = true) {x : Byte} {w : List Byte}
    (hx : u.dropWhile isDigit = x :: w) : isCom x = false := by
  induction u generalizing c with
  | nil => cases hx
  | cons a u ih =>
    rw [List.dropWhile_cons] at hx
    split at hx
    · rename_i ha
      exact ih (h.suffix (List.suffix_cons _ _)) ha hx
    · injection hx with h1 h2
      subst h1
      exact h [] c a u rfl hc

theorem int_step_exact (ht : TailOk μ e) {c : Byte} {u : List Byte} (v : View μ e (c :: u)) (hp : Pos (c :: u)) (hc : nlCom c = false)
    (hg : NoGlue (c :: u)) : graphSkip μ (rd e ((toDigitL (c :: u)).dropWhile isDigit)) = .ok (rd e (nextL (c :: u))) := by
  have hcn : (c == nl) = false ∧ isCom c = false := by simpa [nlCom] using hc
  cases hd : isDigit c with
  | false =>
    have hu : u = [] := by
      rcases hp with h | h | h | h
      · rw [hd] at h; cases h
      · rw [h] at hcn; simp at hcn
      · rw [hcn.2] at h; cases h
      · exact h
    subst hu
    have h1 : (toDigitL [c]).dropWhile isDigit = [] := by simp [toDigitL, hd]
    have h2 : nextL [c] = [] := by
      rw [nextL_nondigit hd hcn.1, restL, hcn.2, hd, hcn.1]; rfl
    rw [h1, h2, graphSkip, atNlOrEol_rd v.tail, ok_bind]; rfl
  | true =>
    have h1 : toDigitL (c :: u) = c :: u := by simp [toDigitL, hd]
    have h2 : (c :: u).dropWhile isDigit = u.dropWhile isDigit := by rw [List.dropWhile_cons, if_pos hd]
    have hsu := dropWhile_suffix' isDigit u
    have v1 : View μ e (u.dropWhile isDigit) := v.tail.of_suffix hsu
    have hn : nextL (c :: u) = match u.dropWhile isDigit with
        | [] => []
        | x :: w => if x == nl then x :: w else restL (x :: w) := by
      unfold nextL
      rw [h2]
      cases u.dropWhile isDigit with
      | nil => rfl
      | cons x w => simp [hd]
    rw [h1, h2, graphSkip, atNlOrEol_rd v1, ok_bind]
    cases hs : u.dropWhile isDigit with
    | nil =>
      rw [hs] at hn
      rw [hn]
      rfl
    | cons x w =>
      have hxd := head_dropDigits u x w hs
      have hxc := hg.after hd hs
      rw [hs] at hn v1
      simp only at hn
      rw [show ((x :: w).isEmpty || (x :: w).head?.any (fun c => c == nl || isCom c)) = (x == nl || isCom x) from rfl, hn, hxc]
      cases hxn : (x == nl) with
      | true => rfl
      | false =>
        rw [Bool.or_false, if_neg (by simp), if_neg (by simp), ← nextL_nondigit hxd hxn]
        exact nextIntOrNl_any ht v1

/-- The tokens both passes visit from `s` on. -/
inductive Toks : List Byte → List Tok → Prop
  | nil : Toks [] []
  | nl {c : Byte} {u : List Byte} {ts : List Tok} : nlCom c = true → Toks (nextL (c :: u)) ts → Toks (c :: u) (.nl :: ts)
  | int {c : Byte} {u : List Byte} {ts : List Tok} : nlCom c = false → Toks (nextL (c :: u)) ts →
      Toks (c :: u) (.int ((toDigitL (c :: u)).takeWhile isDigit) :: ts)

theorem Toks.walk {s : List Byte} {ts : List Tok} (h : Toks s ts) : Walk s (nlsOf ts) (runsOf ts).length := by
  induction h with
  | nil => exact .nil
  | nl hc _ ih => rw [nlsOf_nl, runsOf_nl]; exact .nl hc ih
  | int hc _ ih => rw [nlsOf_int, runsOf_int]; exact .int hc ih

theorem toks_exists : ∀ (k : Nat) (s : List Byte), s.length ≤ k → EndsNC s → ∃ ts, Toks s ts ∧ ts.length ≤ s.length
  | 0, s, h, _ => by
    have : s = [] := List.length_eq_zero_iff.mp (by omega)
    subst this; exact ⟨[], .nil, Nat.le_refl _⟩
  | k+1, [], _, _ => ⟨[], .nil, Nat.le_refl _⟩
  | k+1, c :: u, h, he => by
    have hl := nextL_lt he
    rw [List.length_cons] at h
    obtain ⟨ts, hw, hab⟩ := toks_exists k (nextL (c :: u)) (by omega) (he.suffix (nextL_suffix _))
    cases hc : nlCom c with
    | true => exact ⟨_, .nl hc hw, by rw [List.length_cons, List.length_cons]; omega⟩
    | false => exact ⟨_, .int hc hw, by rw [List.length_cons, List.length_cons]; omega⟩

theorem nlsOf_add (ts : List Tok) : nlsOf ts + (runsOf ts).length = ts.length := by
  induction ts with
  | nil => rfl
  | cons t ts ih =>
    cases t with
    | nl => rw [nlsOf_nl, runsOf_nl, List.length_cons]; omega
    | int r => rw [nlsOf_int, runsOf_int, List.length_cons, List.length_cons]; omega

/-- Pass 2, exactly. -/
theorem set_exact (ht : TailOk μ e) {lw ow n : Nat} (hn : n < 2 ^ lw) : ∀ (k : Nat) (s : List Byte) (ts : List Tok) (st : GSt), View μ e s →
    s.length ≤ k → EndsNC s → Pos s → NoGlue s → Toks s ts → st.ep + (runsOf ts).length < 2 ^ ow →
    ∃ st', graphSetN μ lw ow n k st (rd e s) = .ok st' ∧ st'.acts = st.acts ++ tokActs lw n st.off st.ep ts ∧
      st'.mx = tokMax lw n st.off st.mx ts := by
  intro k
  induction k with
  | zero =>
    intro s ts st v hl _ _ _ hw _
    have : s = [] := List.length_eq_zero_iff.mp (by omega)
    subst this
    cases hw
    exact ⟨st, by simp [graphSetN, good_rd v], by simp [tokActs], by simp [tokMax]⟩
  | succ k ih =>
    intro s ts st v hl he hp hg hw hep
    cases s with
    | nil =>
      cases hw
      exact ⟨st, by simp [graphSetN, good_rd v], by simp [tokActs], by simp [tokMax]⟩
    | cons c u =>
      by_cases hoff : st.off < n
      case neg =>
        exact ⟨st, by rw [graphSetN]; simp [hoff], by rw [tokActs_stop hoff, List.append_nil], by rw [tokMax_stop hoff]⟩
      case pos =>
        rw [List.length_cons] at hl
        have hsuf := nextL_suffix (c :: u)
        have hlt := nextL_lt he
        rw [graphSetN, good_rd v]
        simp only [List.isEmpty_cons, Bool.not_false, Bool.true_and, decide_eq_true_eq, if_pos hoff]
        rw [graphSet, atNlOrEol_eq v, ok_bind]
        cases hw with
        | nl hx hw =>
          have hx' : (c == nl || isCom c) = true := hx
          rw [if_pos hx', nextIntOrNl_any ht v]
          simp only [ok_bind, Nat.mod_eq_of_lt (show st.off + 1 < 2 ^ lw by omega)]
          rw [runsOf_nl] at hep
          obtain ⟨st', h1, h2, h3⟩ := ih (nextL (c :: u)) _ { st with off := st.off + 1, acts := st.acts ++ [.inl (st.off + 1, st.ep)] }
            (v.of_suffix hsuf) (by omega) (he.suffix hsuf) (nextL_pos _) (hg.suffix hsuf) hw hep
          refine ⟨st', h1, ?_, ?_⟩
          · rw [h2, tokActs, if_pos hoff, List.append_assoc]; rfl
          · rw [h3, tokMax, if_pos hoff]
        | int hx hw =>
          have hx' : (c == nl || isCom c) = false := hx
          rw [runsOf_int, List.length_cons] at hep
          rw [hx']
          simp only [Bool.false_eq_true, if_false]
          rw [readInt_wrapU lw v, ok_bind]
          simp only
          rw [int_step_exact ht v hp hx hg, ok_bind]
          simp only [Nat.mod_eq_of_lt (show st.ep + 1 < 2 ^ ow by omega), ok_bind]
          obtain ⟨st', h1, h2, h3⟩ := ih (nextL (c :: u)) _
            { off := st.off, ep := st.ep + 1, mx := max st.mx (decVal ((toDigitL (c :: u)).takeWhile isDigit) % 2 ^ lw),
              acts := st.acts ++ [.inr (st.ep, decVal ((toDigitL (c :: u)).takeWhile isDigit) % 2 ^ lw)] }
            (v.of_suffix hsuf) (by omega) (he.suffix hsuf) (nextL_pos _) (hg.suffix hsuf) hw (by simp only; omega)
          refine ⟨st', h1, ?_, ?_⟩
          · rw [h2, tokActs, if_pos hoff, List.append_assoc]; rfl
          · rw [h3, tokMax, if_pos hoff]

/-! ### texts that end with a newline -/

theorem restL_ne_nil : ∀ (s : List Byte), s.getLast? = some nl → restL s ≠ []
  | [], h => by simp at h
  | c :: u, h => by
    rw [restL]
    split
    · rename_i hc
      intro h0
      have := backL_length (u := u) hc
      rw [h0] at this; simp at this
    · split
      · simp
      · rename_i hs
        apply restL_ne_nil u
        cases u with
        | nil =>
          have : c = nl := by simpa using h
          subst this
          exact absurd (by decide) hs
        | cons a u => rw [List.getLast?_cons_cons] at h; exact h

theorem getLast_suffix {s t : List Byte} (h : t <:+ s) (ht : t ≠ []) {c : Byte} (hs : s.getLast? = some c) : t.getLast? = some c := by
  obtain ⟨p, rfl⟩ := h
  rw [List.getLast?_append] at hs
  cases hl : t.getLast? with
  | none => exact absurd (List.getLast?_eq_none_iff.mp hl) ht
  | some d => rw [hl] at hs; exact hs

theorem nextL_ne_nil {c : Byte} {u : List Byte} (hc : nlCom c = false) (h : (c :: u).getLast? = some nl) : nextL (c :: u) ≠ [] := by
  have hcn : (c == nl) = false ∧ isCom c = false := by simpa [nlCom] using hc
  cases hd : isDigit c with
  | false => rw [nextL_nondigit hd hcn.1]; exact restL_ne_nil _ h
  | true =>
    have hsu := dropWhile_suffix' isDigit (c :: u)
    have hne : (c :: u).dropWhile isDigit ≠ [] := by
      intro h0
      have h1 : ∀ x ∈ c :: u, isDigit x = true := by
        intro x hx
        rw [← List.takeWhile_append_dropWhile (p := isDigit) (l := c :: u), h0, List.append_nil] at hx
        exact mem_takeWhile' hx
      have := h1 _ (List.mem_of_getLast? h)
      exact absurd this (by decide)
    unfold nextL
    split
    · contradiction
    · rename_i x w hs
      rw [hs] at hsu
      split
      · simp [hd]
      · exact restL_ne_nil _ (getLast_suffix hsu (by simp) h)

theorem Toks.ends {s : List Byte} {ts : List Tok} (h : Toks s ts) (hs : s.getLast? = some Pigo.nl) : ts.getLast? = some .nl := by
  have aux : ∀ (t : Tok) (ts : List Tok), (ts ≠ [] → ts.getLast? = some .nl) → (ts = [] → t = .nl) → (t :: ts).getLast? = some .nl := by
    intro t ts h1 h2
    cases ts with
    | nil => rw [h2 rfl]; rfl
    | cons a ts => rw [List.getLast?_cons_cons]; exact h1 (by simp)
  induction h with
  | nil => simp at hs
  | @nl c u ts hc hw ih =>
    refine aux _ _ (fun hne => ?_) (fun _ => rfl)
    apply ih
    apply getLast_suffix (nextL_suffix _) _ hs
    intro h0
    rw [h0] at hw
    cases hw
    exact hne rfl
  | @int c u ts hc hw ih =>
    have hne := nextL_ne_nil hc hs
    have hl := getLast_suffix (nextL_suffix _) hne hs
    refine aux _ _ (fun _ => ih hl) (fun h0 => ?_)
    rw [h0] at ih
    exact absurd (ih hl) (by simp)

theorem toks_decompose : ∀ ts : List Tok, ∃ rows tail, ts = toks rows tail ∧ ((ts = [] ∨ ts.getLast? = some .nl) → tail = [])
  | [] => ⟨[], [], rfl, fun _ => rfl⟩
  | .nl :: ts => by
    obtain ⟨rows, tail, h1, h2⟩ := toks_decompose ts
    refine ⟨[] :: rows, tail, by rw [toks_cons, h1]; rfl, fun h => h2 ?_⟩
    rcases h with h | h
    · cases h
    · cases ts with
      | nil => exact .inl rfl
      | cons a ts => rw [List.getLast?_cons_cons] at h; exact .inr h
  | .int r :: ts => by
    obtain ⟨rows, tail, h1, h2⟩ := toks_decompose ts
    have hl : (Tok.int r :: ts = [] ∨ (Tok.int r :: ts).getLast? = some .nl) → ts.getLast? = some .nl := by
      intro h
      rcases h with h | h
      · cases h
      · cases ts with
        | nil => simp at h
        | cons a ts => rw [List.getLast?_cons_cons] at h; exact h
    cases rows with
    | nil =>
      refine ⟨[], r :: tail, by rw [toks_nil] at h1 ⊢; rw [h1]; rfl, fun h => ?_⟩
      have h3 := hl h
      have h4 := h2 (.inr h3)
      rw [h4] at h1
      rw [h1] at h3; simp [toks] at h3
    | cons q rows =>
      refine ⟨(r :: q) :: rows, tail, by rw [toks_cons] at h1 ⊢; rw [h1]; simp, fun h => h2 (.inr (hl h))⟩

end Pigo
