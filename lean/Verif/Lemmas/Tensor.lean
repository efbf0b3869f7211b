import Verif.Model.Tensor
import Verif.Spec.Tensor
import Verif.Lemmas.Words

/-!
# Tensors from text: one line
-/

namespace Pigo

variable {W : Type} {μ : Mapping} {e : Nat}

/-- From `u` on, a line holds the integers `xs` (reduced to `lw` bits), after which `tail` is left. -/
def CoordsAt (lw : Nat) : List Nat → List Byte → List Byte → Prop
  | [], u, tail => u = tail
  | x :: xs, u, tail => firstIntL u ≠ [] ∧ x % 2 ^ lw = decVal ((firstIntL u).takeWhile isDigit) % 2 ^ lw ∧
      CoordsAt lw xs ((firstIntL u).dropWhile isDigit) tail

/-- The line `l` carries the entry `en` as seen by the scanner. -/
structure TLaw (lw : Nat) (wk : WKind W) (l : List Byte) (en : List Nat × W) : Prop where
  nonl : nl ∉ l
  ne : en.1 ≠ []
  ex : ∃ tail, CoordsAt lw en.1 l tail ∧ WTail wk tail en.2 ∧ (wk.wgt = true → firstIntL tail ≠ [])

theorem toDigit_line : ∀ {s : List Byte}, nl ∉ s → firstIntL s ≠ [] → toDigitL s = firstIntL s
  | [], _, h => absurd rfl h
  | c :: s, hn, h => by
    unfold firstIntL at h ⊢
    rw [toStop.eq_3] at h ⊢
    have hn' : nl ∉ s := fun hm => hn (List.mem_cons_of_mem _ hm)
    split
    · rename_i hc
      rw [if_pos hc, toStop_line_true' _ s hn'] at h
      exact absurd rfl h
    · rename_i hc
      rw [if_neg hc] at h
      split
      · rename_i hd
        rw [toDigitL, List.dropWhile_cons]; simp [hd]
      · rename_i hd
        rw [if_neg hd] at h
        rw [toDigitL, List.dropWhile_cons]
        simp only [hd, Bool.not_false, if_true]
        exact toDigit_line hn' h

theorem CoordsAt.suffix {lw : Nat} : ∀ {xs : List Nat} {u tail : List Byte}, CoordsAt lw xs u tail → tail <:+ u
  | [], _, _, h => h ▸ List.suffix_refl _
  | _ :: _, _, _, h => h.2.2.suffix.trans ((dropWhile_suffix' _ _).trans (toStop_suffix _ _ _))

section
variable {lw : Nat} {wk : WKind W} {rest : List Byte}

/-- `read_int` in a line, from anywhere before the integer. -/
theorem readInt_coord {u : List Byte} (hn : nl ∉ u) (hne : firstIntL u ≠ []) (v : View μ e (u ++ nl :: rest)) :
    readInt μ (wrapU lw) (rd e (u ++ nl :: rest)) =
      .ok (decVal ((firstIntL u).takeWhile isDigit) % 2 ^ lw, rd e ((firstIntL u).dropWhile isDigit ++ nl :: rest)) := by
  have h1 : toDigitL (u ++ nl :: rest) = firstIntL u ++ nl :: rest := by
    have := toDigit_line hn hne
    obtain ⟨g, hg⟩ := dropWhile_suffix' (fun b => !isDigit b) u
    rw [toDigitL] at this ⊢
    rw [← this]
    have hsplit : u = u.takeWhile (fun b => !isDigit b) ++ u.dropWhile (fun b => !isDigit b) := (List.takeWhile_append_dropWhile).symm
    cases hd : u.dropWhile (fun b => !isDigit b) with
    | nil => rw [this] at hd; exact absurd hd hne
    | cons c t =>
      have hc : isDigit c = true := by
        have := List.head?_dropWhile_not (p := fun b => !isDigit b) (l := u)
        rw [hd] at this
        simpa using this
      rw [hd] at hsplit
      rw [hsplit, List.append_assoc]
      have := takeWhile_word (fun b => !isDigit b) (u.takeWhile (fun b => !isDigit b)) (c :: t ++ nl :: rest)
        (fun b hb => List.all_eq_true.mp List.all_takeWhile b hb) (by
          intro b s hs
          rw [List.cons_append] at hs
          injection hs with h1 h2
          rw [← h1, hc]; rfl)
      exact this.2
  rw [readInt_wrapU lw v, h1, takeWhile_append_nl _ isDigit_nl, dropWhile_append_nl _ isDigit_nl]

theorem suf_nl {a b : List Byte} (rest : List Byte) (hs : a <:+ b) : a ++ nl :: rest <:+ b ++ nl :: rest := by
  obtain ⟨t, ht⟩ := hs; exact ⟨t, by rw [← ht]; simp⟩

theorem good_nl {u : List Byte} (v : View μ e (u ++ nl :: rest)) : (rd e (u ++ nl :: rest)).good = true := by
  rw [good_rd v]; simp

/-- Counting a line with weights. -/
theorem skipCoords_wgt (hw : wk.wgt = true) (hr : Readable μ e) : ∀ {xs : List Nat} {u tail : List Byte}, nl ∉ u → CoordsAt lw xs u tail → firstIntL tail ≠ [] →
    View μ e (u ++ nl :: rest) →
    skipCoords μ lw wk xs.length (rd e (firstIntL u ++ nl :: rest)) = .ok (true, rd e (firstIntL tail ++ nl :: rest))
  | [], u, tail, _, h, _, _ => by
    have h : u = tail := h
    subst h; rfl
  | x :: xs, u, tail, hn, h, ht, v => by
    have n1 := not_mem_firstInt hn
    have v1 : View μ e (firstIntL u ++ nl :: rest) := v.of_suffix (suf_nl rest (toStop_suffix _ _ _))
    have n2 : nl ∉ (firstIntL u).dropWhile isDigit := not_mem_dropWhile _ n1
    have v2 : View μ e ((firstIntL u).dropWhile isDigit ++ nl :: rest) := v1.of_suffix (suf_nl rest (dropWhile_suffix' _ _))
    have hne : nextIntL (firstIntL u) ≠ [] := by
      cases xs with
      | nil =>
        have h2 : (firstIntL u).dropWhile isDigit = tail := h.2.2
        unfold nextIntL; rw [h2]; exact ht
      | cons y ys => exact h.2.2.1
    have v3 : View μ e (nextIntL (firstIntL u) ++ nl :: rest) := v2.of_suffix (suf_nl rest (toStop_suffix _ _ _))
    rw [List.length_cons, skipCoords, if_pos hw, moveToNextInt_eq v1 hr, nextIntL_line _ _ n1 hne]
    simp only [ok_bind, good_nl v3, Bool.not_true, Bool.false_eq_true, if_false]
    exact skipCoords_wgt hw hr n2 h.2.2 ht v2

/-- Counting a line without weights. -/
theorem skipCoords_plain (hw : wk.wgt = false) : ∀ {xs : List Nat} {u tail : List Byte}, nl ∉ u → CoordsAt lw xs u tail →
    View μ e (u ++ nl :: rest) →
    skipCoords μ lw wk xs.length (rd e (u ++ nl :: rest)) = .ok (true, rd e (tail ++ nl :: rest))
  | [], u, tail, _, h, _ => by
    have h : u = tail := h
    subst h; rfl
  | x :: xs, u, tail, hn, h, v => by
    have n1 := not_mem_firstInt hn
    have v1 : View μ e (firstIntL u ++ nl :: rest) := v.of_suffix (suf_nl rest (toStop_suffix _ _ _))
    have n2 : nl ∉ (firstIntL u).dropWhile isDigit := not_mem_dropWhile _ n1
    have v2 : View μ e ((firstIntL u).dropWhile isDigit ++ nl :: rest) := v1.of_suffix (suf_nl rest (dropWhile_suffix' _ _))
    rw [List.length_cons, skipCoords, hw]
    simp only [Bool.false_eq_true, if_false]
    rw [readInt_coord hn h.1 v]
    simp only [ok_bind, good_nl v2, Bool.not_true, Bool.false_eq_true, if_false]
    exact skipCoords_plain hw n2 h.2.2 v2

/-- The stores of the coordinates `xs` of the entry at position `pos`. -/
def coordActs (base : Nat) : List Nat → List (TAct W)
  | [] => []
  | x :: xs => .setC base x :: coordActs (base + 1) xs

/-- Setting a line: the coordinates. -/
theorem readCoords_ok {order pos : Nat} : ∀ {xs : List Nat} {u tail : List Byte} {idx : Nat} {acts : List (TAct W)}, nl ∉ u → CoordsAt lw xs u tail →
    View μ e (u ++ nl :: rest) →
    readCoords μ lw order pos xs.length idx acts (rd e (u ++ nl :: rest)) =
      .ok (true, acts ++ coordActs (pos * order + idx) (xs.map (· % 2 ^ lw)), rd e (tail ++ nl :: rest))
  | [], u, tail, idx, acts, _, h, _ => by
    have h : u = tail := h
    subst h
    simp [readCoords, coordActs]
  | x :: xs, u, tail, idx, acts, hn, h, v => by
    have n1 := not_mem_firstInt hn
    have v1 : View μ e (firstIntL u ++ nl :: rest) := v.of_suffix (suf_nl rest (toStop_suffix _ _ _))
    have n2 : nl ∉ (firstIntL u).dropWhile isDigit := not_mem_dropWhile _ n1
    have v2 : View μ e ((firstIntL u).dropWhile isDigit ++ nl :: rest) := v1.of_suffix (suf_nl rest (dropWhile_suffix' _ _))
    rw [List.length_cons, readCoords, readInt_coord hn h.1 v]
    simp only [ok_bind, good_nl v2, Bool.not_true, Bool.false_eq_true, if_false]
    rw [readCoords_ok n2 h.2.2 v2, ← h.2.1]
    simp [coordActs, Nat.add_assoc]

/-- Counting starts at the first integer. -/
theorem CoordsAt.first {x : Nat} {xs : List Nat} {u tail : List Byte} (h : CoordsAt lw (x :: xs) u tail) : CoordsAt lw (x :: xs) (firstIntL u) tail := by
  have : firstIntL (firstIntL u) = firstIntL u := by
    cases hu : firstIntL u with
    | nil => exact absurd hu h.1
    | cons c t =>
      obtain ⟨h1, h2⟩ := toStop_head isDigit false u c t hu
      rw [firstIntL, toStop.eq_3, h2, h1]; simp
  exact ⟨by rw [this]; exact h.1, by rw [this]; exact h.2.1, by rw [this]; exact h.2.2⟩

/-- One counted line. -/
theorem tensorCount_line {l : List Byte} {en : List Nat × W} (h : TLaw lw wk l en) (hr : Readable μ e) (pos : Nat) (v : View μ e (firstIntL l ++ nl :: rest)) :
    tensorCount μ lw wk en.1.length pos (rd e (firstIntL l ++ nl :: rest)) = .ok (pos + 1, rd e (firstIntL rest)) := by
  obtain ⟨hn, hne, tail, hc, ht, htw⟩ := h
  obtain ⟨xs, w⟩ := en
  simp only at *
  obtain ⟨x, xs, rfl⟩ := List.exists_cons_of_ne_nil hne
  have n1 := not_mem_firstInt hn
  have hc := hc.first
  have v' := v.append
  have fin : ∀ u, u <:+ firstIntL l → (moveToEol μ (rd e (u ++ nl :: rest)) >>= fun r => moveToNextInt μ r >>= fun r => Except.ok (pos + 1, r)) =
      (.ok (pos + 1, rd e (firstIntL rest)) : M (Nat × Reader)) := by
    intro u hu
    rw [moveToEol_eq (v.of_suffix (suf_nl rest hu)), eolL_line _ _ (fun hm => n1 (hu.subset hm)), ok_bind, moveToNextInt_eq v' hr, nextIntL_nl, ok_bind]
  unfold tensorCount
  cases hw : wk.wgt with
  | true =>
    have h0 := skipCoords_wgt (rest := rest) hw hr n1 hc (htw hw) v
    have hid : firstIntL (firstIntL l) = firstIntL l := by
      cases hu : firstIntL l with
      | nil => exact absurd (by rw [hu]; rfl) hc.1
      | cons c t =>
        obtain ⟨h1, h2⟩ := toStop_head isDigit false l c t hu
        rw [firstIntL, toStop.eq_3, h2, h1]; simp
    rw [hid] at h0
    rw [h0]
    simp only [ok_bind, Bool.not_true, Bool.false_eq_true, if_false]
    exact fin _ ((toStop_suffix _ _ _).trans hc.suffix)
  | false =>
    rw [skipCoords_plain hw n1 hc v]
    simp only [ok_bind, Bool.not_true, Bool.false_eq_true, if_false]
    exact fin _ hc.suffix

/-- The stores of one entry. -/
def tActs (lw : Nat) (wgt : Bool) (order p : Nat) (en : List Nat × W) : List (TAct W) :=
  coordActs (p * order) (en.1.map (· % 2 ^ lw)) ++ if wgt then [.setW p en.2] else []

/-- One stored line. -/
theorem tensorSet_line {l : List Byte} {en : List Nat × W} (h : TLaw lw wk l en) (hr : Readable μ e) (st : Nat × List (TAct W)) (v : View μ e (firstIntL l ++ nl :: rest)) :
    tensorSet μ lw wk en.1.length st (rd e (firstIntL l ++ nl :: rest)) =
      .ok ((st.1 + 1, st.2 ++ tActs lw wk.wgt en.1.length st.1 en), rd e (firstIntL rest)) := by
  obtain ⟨hn, hne, tail, hc, ht, htw⟩ := h
  obtain ⟨xs, w⟩ := en
  simp only at *
  obtain ⟨x, xs, rfl⟩ := List.exists_cons_of_ne_nil hne
  have n1 := not_mem_firstInt hn
  have hc := hc.first
  have v' := v.append
  have v2 := v.of_suffix (suf_nl rest hc.suffix)
  obtain ⟨⟨u', hu', hread⟩, _⟩ := ht μ e rest v2 hr
  have hu := hu'.trans hc.suffix
  unfold tensorSet
  rw [readCoords_ok n1 hc v]
  simp only [ok_bind, Bool.not_true, Bool.false_eq_true, if_false, hread]
  rw [moveToEol_eq (v.of_suffix (suf_nl rest hu)), eolL_line _ _ (fun hm => n1 (hu.subset hm))]
  simp only [ok_bind]
  rw [moveToNextInt_eq v' hr, nextIntL_nl]
  simp only [ok_bind, tActs, Nat.add_zero]
  cases wk.wgt <;> simp

end

/-! ## Loops over a region -/

/-- A line as classified by `ent`: blank, or a step of the loop. -/
def StepOk {σ E : Type} (μ : Mapping) (body : σ → Reader → M (σ × Reader)) (upd : σ → E → σ) (ent : List Byte → Option E) (l : List Byte) : Prop :=
  nl ∉ l ∧ match ent l with
    | none => firstIntL l = []
    | some en => firstIntL l ≠ [] ∧ ∀ e rest s, Readable μ e → View μ e (firstIntL l ++ nl :: rest) →
        body s (rd e (firstIntL l ++ nl :: rest)) = .ok (upd s en, rd e (firstIntL rest))

theorem while_region {σ E : Type} {body : σ → Reader → M (σ × Reader)} {upd : σ → E → σ} {ent : List Byte → Option E} {g : List Byte} (hr : Readable μ e)
    (hg : firstIntL g = []) : ∀ (ls : List (List Byte)) (n : Nat) (s : σ), (∀ l ∈ ls, StepOk μ body upd ent l) → View μ e (firstIntL (text ls ++ g)) →
    (firstIntL (text ls ++ g)).length ≤ n →
    whileGood body n s (rd e (firstIntL (text ls ++ g))) = .ok ((ls.filterMap ent).foldl upd s, rd e [])
  | [], n, s, _, v, hn => by
    rw [text_nil, List.nil_append, hg] at v ⊢
    cases n <;> simp [whileGood, good_rd v]
  | l :: ls, n, s, h, v, hn => by
    have hl := h l (List.mem_cons_self ..)
    have hls := fun l' hl' => h l' (List.mem_cons_of_mem _ hl')
    have hfirst : firstIntL (text (l :: ls) ++ g) = if firstIntL l = [] then firstIntL (text ls ++ g) else firstIntL l ++ nl :: (text ls ++ g) := by
      rw [text_cons, List.append_assoc, List.cons_append]
      exact toStop_line _ isDigit_nl l _ hl.1
    cases he : ent l with
    | none =>
      have h2 := hl.2
      rw [he] at h2
      rw [hfirst, if_pos h2] at v hn ⊢
      rw [List.filterMap_cons, he]
      exact while_region hr hg ls n s hls v hn
    | some en =>
      have h2 := hl.2
      rw [he] at h2
      obtain ⟨hne, hstep⟩ := h2
      rw [hfirst, if_neg hne] at v hn ⊢
      have v' : View μ e (firstIntL (text ls ++ g)) := v.append.tail.of_suffix (toStop_suffix _ _ _)
      have hlen : (firstIntL (text ls ++ g)).length ≤ (text ls ++ g).length := (toStop_suffix isDigit false (text ls ++ g)).length_le
      rw [List.length_append, List.length_cons] at hn
      obtain ⟨n, rfl⟩ : ∃ k, n = k + 1 := ⟨n - 1, by omega⟩
      rw [whileGood, good_rd v, if_pos (by simp), hstep e _ s hr v, ok_bind, List.filterMap_cons, he, List.foldl_cons]
      exact while_region hr hg ls n _ hls v' (by omega)

end Pigo
