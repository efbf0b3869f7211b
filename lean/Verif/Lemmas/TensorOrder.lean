import Verif.Lemmas.TensorSpec

/-!
# Detection of the order of a tensor
-/

namespace Pigo

variable {W : Type} {μ : Mapping} {e : Nat}

theorem skipSpaces_eq : ∀ (n : Nat) (s : List Byte) {u : List Byte} {c : Byte}, (∀ b ∈ s, b = 32) → c ≠ 32 → View μ e (s ++ c :: u) → s.length < n →
    skipSpacesN μ n (rd e (s ++ c :: u)) = .ok (rd e (c :: u))
  | 0, _, _, _, _, _, _, h => by omega
  | n+1, [], u, c, _, hc, v, _ => by
    rw [List.nil_append] at v ⊢
    rw [skipSpacesN, v.get_d, ok_bind, if_neg (by simpa using hc)]
  | n+1, a :: s, u, c, hs, hc, v, h => by
    have ha : a = 32 := hs a (by simp)
    subst ha
    rw [List.cons_append] at v ⊢
    rw [skipSpacesN, v.get_d, ok_bind, if_pos (by rfl), v.adv]
    exact skipSpaces_eq n s (fun b hb => hs b (List.mem_cons_of_mem _ hb)) hc v.tail (by simpa using h)

theorem skipSpaces_rd {s u : List Byte} {c : Byte} (hs : ∀ b ∈ s, b = 32) (hc : c ≠ 32) (v : View μ e (s ++ c :: u)) :
    skipSpaces μ (rd e (s ++ c :: u)) = .ok (rd e (c :: u)) := by
  refine skipSpaces_eq _ s hs hc v ?_
  have h1 := v.length_le
  have h2 := v.le
  simp only [rd, List.length_append, List.length_cons] at h1 ⊢
  omega

theorem spec_dot {b : Byte} (h : Spec.isDigit b = true ∨ b.toNat = '.'.toNat) : (isDigit b || b == 46) = true := by
  rw [isDigit_spec] at h
  rcases h with h | h
  · simp [h]
  · have : b = 46 := byte_eq (by rw [h]; decide)
    simp [this]

theorem tokens_blank {c : List Byte} (h : Spec.tokens c = []) : ∀ b ∈ c, Spec.isBlank b = true := by
  induction c with
  | nil => simp
  | cons a c ih =>
    by_cases ha : Spec.isBlank a = true
    · have h2 := tokens_append [] c a ha
      rw [List.nil_append] at h2
      rw [h2] at h
      have h3 : Spec.tokens c = [] := (List.append_eq_nil_iff.mp h).2
      intro b hb
      rcases List.mem_cons.mp hb with rfl | hb
      · exact ha
      · exact ih h3 b hb
    · exfalso
      have hsplit : a :: c = (a :: c).takeWhile (fun b => !Spec.isBlank b) ++ (a :: c).dropWhile (fun b => !Spec.isBlank b) := (List.takeWhile_append_dropWhile).symm
      have hw : ∀ b ∈ (a :: c).takeWhile (fun b => !Spec.isBlank b), Spec.isBlank b = false := by
        intro b hb
        have := List.all_eq_true.mp (List.all_takeWhile (p := fun b => !Spec.isBlank b)) b hb
        simpa using this
      have hne : (a :: c).takeWhile (fun b => !Spec.isBlank b) ≠ [] := by simp [ha]
      have htw : Spec.tokens ((a :: c).takeWhile (fun b => !Spec.isBlank b)) = [(a :: c).takeWhile (fun b => !Spec.isBlank b)] := by
        unfold Spec.tokens
        rw [List.splitOnP_eq_singleton hw]
        simp [hne]
      rw [hsplit] at h
      cases hd : (a :: c).dropWhile (fun b => !Spec.isBlank b) with
      | nil => rw [hd, List.append_nil, htw] at h; cases h
      | cons d r =>
        have hdb : Spec.isBlank d = true := by
          have := List.head?_dropWhile_not (p := fun b => !Spec.isBlank b) (l := a :: c)
          rw [hd] at this
          simpa using this
        rw [hd, tokens_append _ _ _ hdb, htw] at h
        cases h

/-- Every all-blank suffix consists of spaces. -/
def EndsPlain (c : List Byte) : Prop := ∀ s, s <:+ c → (∀ b ∈ s, Spec.isBlank b = true) → ∀ b ∈ s, b = 32

theorem countSpaces_line {com rest : List Byte} (hcom : ∀ b r, com = b :: r → isCom b = true) : ∀ (n : Nat) (c : List Byte) (t : List Byte) (ts : List (List Byte)) (ct : Nat),
    (∀ b ∈ c, isCom b = false) → nl ∉ c → Spec.tokens c = t :: ts → (∀ t' ∈ t :: ts, Spec.plainNumber t') → EndsPlain c →
    View μ e (c ++ (com ++ nl :: rest)) → c.length ≤ n →
    ∃ r, countSpacesN μ n ct (rd e (c ++ (com ++ nl :: rest))) = .ok (ct + ts.length, r)
  | 0, c, t, ts, ct, _, _, ht, _, _, _, hn => by
    have : c = [] := List.length_eq_zero_iff.mp (by omega)
    subst this
    simp [Spec.tokens] at ht
  | n+1, c, t, ts, ct, hcc, hcn, ht, hpl, hend, v, hn => by
    obtain ⟨bl, r, e1, p1, q1, tb, s1, t1⟩ := tokens_cons _ _ _ ht
    obtain ⟨hp1, hp2⟩ := hpl t (by simp)
    simp only [isDigit_spec] at hp1
    -- the word: non-digits, then the number
    have hsplit : t = t.takeWhile (fun b => !isDigit b) ++ t.dropWhile (fun b => !isDigit b) := (List.takeWhile_append_dropWhile).symm
    have hpre : ∀ b ∈ t.takeWhile (fun b => !isDigit b), isDigit b = false := by
      intro b hb
      have := List.all_eq_true.mp (List.all_takeWhile (p := fun b => !isDigit b)) b hb
      simpa using this
    obtain ⟨d, num, hnum⟩ := List.exists_cons_of_ne_nil hp1
    have hd : isDigit d = true := by
      have := List.head?_dropWhile_not (p := fun b => !isDigit b) (l := t)
      rw [hnum] at this
      simpa using this
    have hnumd : ∀ b ∈ d :: num, (isDigit b || b == 46) = true := by
      intro b hb
      apply spec_dot
      apply hp2
      simp only [isDigit_spec]
      rw [hnum]; exact hb
    generalize htk : t.takeWhile (fun b => !isDigit b) = pre at *
    rw [hnum] at hsplit
    have hc : c = (bl ++ pre) ++ ((d :: num) ++ r) := by rw [e1, hsplit]; simp
    have htext : c ++ (com ++ nl :: rest) = (bl ++ pre) ++ ((d :: num) ++ (r ++ (com ++ nl :: rest))) := by rw [hc]; simp
    -- the first character is not a newline
    have hc0 : c ≠ [] := by rw [hc]; simp
    obtain ⟨c0, c', hc0⟩ := List.exists_cons_of_ne_nil hc0
    have hlt : (rd e (c ++ (com ++ nl :: rest))).d < (rd e (c ++ (com ++ nl :: rest))).e := by
      rw [hc0, List.cons_append] at v ⊢; exact v.lt
    have hget : μ.get (rd e (c ++ (com ++ nl :: rest))).d = .ok c0 := by
      rw [hc0, List.cons_append] at v ⊢; exact v.get_d
    have hc0n : (c0 == nl) = false := by
      have : c0 ≠ nl := fun h => hcn (by rw [hc0, h]; simp)
      simpa using this
    have hscan1 : scan μ (fun b => b != nl && !isCom b && !isDigit b) (rd e (c ++ (com ++ nl :: rest))) = .ok (rd e ((d :: num) ++ (r ++ (com ++ nl :: rest)))) := by
      rw [scan_eq _ v, htext, (takeWhile_word _ (bl ++ pre) ((d :: num) ++ (r ++ (com ++ nl :: rest))) ?_ ?_).2]
      · intro b hb
        have hbc : b ∈ c := by rw [hc]; exact List.mem_append_left _ hb
        have hbn : b ≠ nl := fun h => hcn (h ▸ hbc)
        have hbd : isDigit b = false := by
          rcases List.mem_append.mp hb with h | h
          · exact (blank_not (p1 b h)).1
          · exact hpre b h
        simp [hbn, hcc b hbc, hbd]
      · intro b s hs
        injection hs with hs _
        rw [← hs, hd]; simp
    have v1 : View μ e ((d :: num) ++ (r ++ (com ++ nl :: rest))) := by rw [htext] at v; exact v.append
    have hget1 : μ.get (rd e ((d :: num) ++ (r ++ (com ++ nl :: rest)))).d = .ok d := v1.get_d
    have v2 : View μ e (r ++ (com ++ nl :: rest)) := v1.append
    have hscan2 : scan μ (fun b => isDigit b || b == 46) (rd e ((d :: num) ++ (r ++ (com ++ nl :: rest)))) = .ok (rd e (r ++ (com ++ nl :: rest))) := by
      rw [scan_eq _ v1, (takeWhile_word _ (d :: num) (r ++ (com ++ nl :: rest)) hnumd ?_).2]
      intro b s hs
      cases r with
      | cons b' r' =>
        injection hs with hs _
        rcases blank_cases (s1 b' r' rfl) with h | h | h <;> rw [← hs, h] <;> decide
      | nil =>
        cases com with
        | cons b' r' =>
          injection hs with hs _
          have hb := hcom b' r' rfl
          rw [hs] at hb
          have h1 := isCom_not_digit hb
          have h2 : (b == 46) = false := by
            by_cases h : b = 46
            · rw [h] at hb; exact absurd hb (by decide)
            · simpa using h
          simp [h1, h2]
        | nil =>
          injection hs with hs _
          rw [← hs]; decide
    rw [countSpacesN, if_pos hlt, hget]
    simp only [ok_bind, hc0n, Bool.false_eq_true, if_false, hscan1, hget1, hd, Bool.not_true, hscan2]
    -- what follows the number
    cases hr : r with
    | nil =>
      have hts : ts = [] := by rw [← t1, hr]; simp [Spec.tokens]
      rw [hr, List.nil_append] at v2
      rw [List.nil_append, hts]
      cases com with
      | nil =>
        rw [List.nil_append] at v2 ⊢
        rw [v2.get_d]
        exact ⟨_, rfl⟩
      | cons b' r' =>
        have hb := hcom b' r' rfl
        have hbn : (b' == nl) = false := by
          by_cases h : b' = nl
          · rw [h] at hb; exact absurd hb (by decide)
          · simpa using h
        rw [List.cons_append] at v2 ⊢
        rw [v2.get_d]
        simp only [ok_bind, hbn, Bool.false_eq_true, if_false, hb, if_true]
        rw [← List.cons_append] at v2 ⊢
        rw [moveToEol_eq v2]
        exact ⟨_, rfl⟩
    | cons b0 r0 =>
      have hb0 := s1 b0 r0 hr
      obtain ⟨_, hb0c, _, _, hb0n⟩ := blank_not hb0
      have hgetb : μ.get (rd e (r ++ (com ++ nl :: rest))).d = .ok b0 := by
        rw [hr, List.cons_append] at v2 ⊢; exact v2.get_d
      rw [← hr, hgetb]
      have hb0n' : (b0 == nl) = false := by simpa using hb0n
      simp only [ok_bind, hb0n', hb0c, Bool.false_eq_true, if_false]
      have hrsuf : r <:+ c := ⟨(bl ++ pre) ++ (d :: num), by rw [hc]; simp⟩
      -- the spaces
      have hsp : r = r.takeWhile (fun b => b == 32) ++ r.dropWhile (fun b => b == 32) := (List.takeWhile_append_dropWhile).symm
      have hspa : ∀ b ∈ r.takeWhile (fun b => b == 32), b = 32 := by
        intro b hb
        have := List.all_eq_true.mp (List.all_takeWhile (p := fun b => b == 32)) b hb
        simpa using this
      cases hr2 : r.dropWhile (fun b => b == 32) with
      | nil =>
        rw [hr2, List.append_nil] at hsp
        have hts : ts = [] := by
          rw [← t1]
          cases htr : Spec.tokens r with
          | nil => rfl
          | cons t' ts' =>
            obtain ⟨bl', r', e', p', q', tb', _⟩ := tokens_cons _ _ _ htr
            obtain ⟨a, t'', rfl⟩ := List.exists_cons_of_ne_nil q'
            have ha := tb' a (by simp)
            have ha2 : a ∈ r := by rw [e']; simp
            rw [hsp] at ha2
            rw [hspa a ha2] at ha
            exact absurd ha (by decide)
        rw [hts]
        cases hcm : com with
        | nil =>
          rw [hcm, List.nil_append] at v2
          rw [List.nil_append]
          have := skipSpaces_rd (u := rest) (c := nl) (fun b hb => hspa b (by rw [← hsp]; exact hb)) (by decide) v2
          rw [this]
          simp only [ok_bind]
          rw [v2.append.get_d]
          exact ⟨_, rfl⟩
        | cons b' r' =>
          have hb := hcom b' r' hcm
          have hbn : (b' == nl) = false := by
            by_cases h : b' = nl
            · rw [h] at hb; exact absurd hb (by decide)
            · simpa using h
          rw [hcm, List.cons_append] at v2
          rw [List.cons_append]
          have := skipSpaces_rd (u := r' ++ nl :: rest) (c := b') (fun b hb => hspa b (by rw [← hsp]; exact hb)) (by
            rintro rfl
            revert hb; decide) v2
          rw [this]
          simp only [ok_bind]
          rw [v2.append.get_d]
          simp only [ok_bind, hbn, Bool.false_eq_true, if_false, hb, if_true]
          rw [moveToEol_eq v2.append]
          exact ⟨_, rfl⟩
      | cons c1 r2 =>
        rw [hr2] at hsp
        generalize hsps : r.takeWhile (fun b => b == 32) = sps at hsp hspa
        have hc1 : c1 ≠ 32 := by
          have := List.head?_dropWhile_not (p := fun b => b == 32) (l := r)
          rw [hr2] at this
          simpa using this
        have hsuf2 : c1 :: r2 <:+ c := List.IsSuffix.trans ⟨sps, hsp.symm⟩ hrsuf
        have hc1n : (c1 == nl) = false := by
          have : c1 ≠ nl := fun h => hcn (hsuf2.subset (by rw [h]; simp))
          simpa using this
        have hc1c : isCom c1 = false := hcc c1 (hsuf2.subset (by simp))
        have hrw : r ++ (com ++ nl :: rest) = sps ++ c1 :: (r2 ++ (com ++ nl :: rest)) := by rw [hsp]; simp
        rw [hrw] at v2 ⊢
        rw [skipSpaces_rd hspa hc1 v2]
        simp only [ok_bind]
        rw [v2.append.get_d]
        simp only [ok_bind, hc1n, hc1c, Bool.false_eq_true, if_false]
        -- the remaining words
        have htok : Spec.tokens (c1 :: r2) = ts := by
          rw [← t1, hsp]
          clear hsps hrw hsp
          revert hspa
          clear v2
          intro hspa
          induction sps with
          | nil => rfl
          | cons a sps ih =>
            have ha : a = 32 := hspa a (by simp)
            have := tokens_append [] (sps ++ c1 :: r2) a (by rw [ha]; decide)
            rw [List.nil_append] at this
            rw [List.cons_append, this]
            have h0 : Spec.tokens [] = [] := by simp [Spec.tokens]
            rw [h0, List.nil_append]
            exact ih (fun b hb => hspa b (List.mem_cons_of_mem _ hb))
        have hend2 : EndsPlain (c1 :: r2) := fun s hs => hend s (hs.trans hsuf2)
        cases hts : ts with
        | nil =>
          exfalso
          rw [hts] at htok
          exact hc1 (hend2 _ (List.suffix_refl _) (tokens_blank htok) c1 (by simp))
        | cons t2 ts2 =>
          rw [hts] at htok
          have hlen : (c1 :: r2).length ≤ n := by
            have h1 := congrArg List.length hc
            have h2 := congrArg List.length hsp
            simp only [List.length_append, List.length_cons] at h1 h2 hn ⊢
            omega
          obtain ⟨rr, hrr⟩ := countSpaces_line hcom n (c1 :: r2) t2 ts2 (ct + 1) (fun b hb => hcc b (hsuf2.subset hb)) (fun h => hcn (hsuf2.subset h)) htok
            (fun t' ht' => hpl t' (by rw [hts]; exact List.mem_cons_of_mem _ ht')) hend2 v2.append hlen
          refine ⟨rr, ?_⟩
          rw [List.cons_append] at hrr
          rw [hrr, List.length_cons]
          congr 2; omega

theorem toStop_skip (stop : Byte → Bool) {d : Byte} (hd : stop d = true) (hdc : isCom d = false) (u : List Byte) : ∀ (s : List Byte),
    (∀ b ∈ s, stop b = false ∧ isCom b = false) → toStop stop false (s ++ d :: u) = d :: u
  | [], _ => by simp [toStop, hd, hdc]
  | a :: s, h => by
    obtain ⟨h1, h2⟩ := h a (by simp)
    rw [List.cons_append, toStop]
    simp only [h2, h1, Bool.false_eq_true, if_false]
    exact toStop_skip stop hd hdc u s (fun b hb => h b (List.mem_cons_of_mem _ hb))

theorem words_of_ints {l : List Byte} (h : Spec.ints l ≠ []) : Spec.words l ≠ [] := by
  intro hw
  apply h
  have := digitRuns_blanks (Spec.stripComment l) [] (tokens_blank hw)
  unfold Spec.ints
  rw [List.append_nil] at this
  rw [this, digitRuns_nil]; rfl

/-- Where a line starts for the reader, in terms of its words. -/
theorem firstInt_words {l : List Byte} (h : Spec.ints l ≠ []) (hp : Spec.PlainLine l) :
    ∃ c com t ts, firstIntL l = c ++ com ∧ (∀ b r, com = b :: r → isCom b = true) ∧ (∀ b ∈ c, isCom b = false) ∧
      Spec.tokens c = t :: ts ∧ (∀ t' ∈ t :: ts, Spec.plainNumber t') ∧ EndsPlain c ∧ (Spec.words l).length = ts.length + 1 ∧ c <:+ Spec.stripComment l := by
  obtain ⟨com, hl, hcom⟩ := strip_append l
  have hcc := noCom_strip l
  have hne := words_of_ints h
  have hnum := hp.numbers
  have hend := hp.ending
  unfold Spec.words at hne hnum
  unfold Spec.words
  generalize hc : Spec.stripComment l = c at hl hcc hne hnum hend
  obtain ⟨t, ts, ht⟩ := List.exists_cons_of_ne_nil hne
  obtain ⟨bl, r, e1, p1, q1, tb, s1, t1⟩ := tokens_cons _ _ _ ht
  obtain ⟨hp1, hp2⟩ := hnum t (by rw [ht]; simp)
  simp only [isDigit_spec] at hp1 hp2
  have hsplit : t = t.takeWhile (fun b => !isDigit b) ++ t.dropWhile (fun b => !isDigit b) := (List.takeWhile_append_dropWhile).symm
  have hpre : ∀ b ∈ t.takeWhile (fun b => !isDigit b), isDigit b = false := by
    intro b hb
    have := List.all_eq_true.mp (List.all_takeWhile (p := fun b => !isDigit b)) b hb
    simpa using this
  obtain ⟨d, num, hn⟩ := List.exists_cons_of_ne_nil hp1
  have hd : isDigit d = true := by
    have := List.head?_dropWhile_not (p := fun b => !isDigit b) (l := t)
    rw [hn] at this
    simpa using this
  rw [hn] at hp2 hsplit
  generalize t.takeWhile (fun b => !isDigit b) = pre at hsplit hpre
  have hce : c = (bl ++ pre) ++ ((d :: num) ++ r) := by rw [e1, hsplit]; simp
  have hsuf : (d :: num) ++ r <:+ c := ⟨_, hce.symm⟩
  have hdw : ∀ b ∈ d :: num, Spec.isBlank b = false := fun b hb => tb b (by rw [hsplit]; exact List.mem_append_right _ hb)
  have htok : Spec.tokens ((d :: num) ++ r) = (d :: num) :: ts := by
    have hw : Spec.tokens (d :: num) = [d :: num] := by
      unfold Spec.tokens
      rw [List.splitOnP_eq_singleton hdw]
      simp
    cases hr : r with
    | nil =>
      rw [List.append_nil, hw, ← t1, hr]
      simp [Spec.tokens]
    | cons b r' =>
      have hb := s1 b r' hr
      have h2 := tokens_append [] r' b hb
      rw [List.nil_append] at h2
      rw [tokens_append _ _ _ hb, hw, ← t1, hr, h2]
      simp [Spec.tokens]
  refine ⟨(d :: num) ++ r, com, d :: num, ts, ?_, hcom, fun b hb => hcc b (hsuf.subset hb), htok, ?_, ?_, ?_, ?_⟩
  · have : l = (bl ++ pre) ++ d :: (num ++ r ++ com) := by rw [hl, hce]; simp
    rw [this]
    have h2 : firstIntL ((bl ++ pre) ++ d :: (num ++ r ++ com)) = d :: (num ++ r ++ com) := by
      refine toStop_skip isDigit hd ?_ _ _ ?_
      · exact hcc d (hsuf.subset (by simp))
      · intro b hb
        refine ⟨?_, hcc b (by rw [hce]; exact List.mem_append_left _ hb)⟩
        rcases List.mem_append.mp hb with h | h
        · exact (blank_not (p1 b h)).1
        · exact hpre b h
    rw [h2]; simp
  · intro t' ht'
    rcases List.mem_cons.mp ht' with rfl | h
    · refine ⟨?_, ?_⟩
      · simp [isDigit_spec, hd]
      · simp only [isDigit_spec, List.dropWhile_cons, hd, Bool.not_true, Bool.false_eq_true, if_false]
        exact hp2
    · exact hnum t' (by rw [ht]; exact List.mem_cons_of_mem _ h)
  · intro s hs hb b hbs
    exact byte_eq (by rw [hend s (hs.trans hsuf) hb b hbs]; decide)
  · rw [ht]; rfl
  · exact hsuf

theorem firstInt_lines {A : List (List Byte)} (hA : NoNl A) (hb : ∀ l ∈ A, firstIntL l = []) (X : List Byte) : firstIntL (text A ++ X) = firstIntL X := by
  induction A with
  | nil => rfl
  | cons l A ih =>
    have h1 : text (l :: A) ++ X = l ++ nl :: (text A ++ X) := by simp [text]
    rw [h1]
    have h2 := toStop_line _ isDigit_nl l (text A ++ X) (hA l (by simp))
    unfold firstIntL at hb ih ⊢
    rw [h2, if_pos (hb l (by simp))]
    exact ih (fun l hl => hA l (List.mem_cons_of_mem _ hl)) (fun l hl => hb l (List.mem_cons_of_mem _ hl))

/-- The order found when the first data line is made of plain numbers. -/
theorem tensorOrder_eq {A B : List (List Byte)} {l tail : List Byte} {ow : Nat} {wgt : Bool} (hr : Readable μ e) (hn : NoNl (A ++ l :: B))
    (v : View μ e (text (A ++ l :: B) ++ tail)) (hA : ∀ l ∈ A, Spec.ints l = []) (hl : Spec.ints l ≠ []) (hp : Spec.PlainLine l) (hw : (Spec.words l).length < 2 ^ ow) :
    tensorOrder μ ow wgt (rd e (text (A ++ l :: B) ++ tail)) = .ok ((Spec.words l).length - if wgt then 1 else 0) := by
  have hln : nl ∉ l := hn l (by simp)
  have hAn : NoNl A := fun l hl => hn l (by simp [hl])
  have hfirst : firstIntL (text (A ++ l :: B) ++ tail) = firstIntL l ++ nl :: (text B ++ tail) := by
    have h1 : text (A ++ l :: B) ++ tail = text A ++ (l ++ nl :: (text B ++ tail)) := by simp [text]
    rw [h1, firstInt_lines hAn (fun l hl => (firstIntL_nil_iff l (hAn l hl)).mpr (hA l hl))]
    have h2 := toStop_line _ isDigit_nl l (text B ++ tail) hln
    have h3 : firstIntL l ≠ [] := fun h => hl ((firstIntL_nil_iff l hln).mp h)
    unfold firstIntL at h3 ⊢
    rw [h2, if_neg h3]
  obtain ⟨c, com, t, ts, hc, hcom, hcc, htok, hpl, hend, hlen, hsuf⟩ := firstInt_words hl hp
  unfold tensorOrder
  rw [moveToFirstInt_eq v hr, ok_bind, hfirst, hc, List.append_assoc]
  have v' : View μ e (c ++ (com ++ nl :: (text B ++ tail))) := by
    have := v.of_suffix (toStop_suffix isDigit false (text (A ++ l :: B) ++ tail))
    have h2 : toStop isDigit false (text (A ++ l :: B) ++ tail) = c ++ (com ++ nl :: (text B ++ tail)) := by
      rw [show toStop isDigit false (text (A ++ l :: B) ++ tail) = firstIntL (text (A ++ l :: B) ++ tail) from rfl, hfirst, hc, List.append_assoc]
    rw [h2] at this
    exact this
  have hcn : nl ∉ c := fun hm => hln ((List.takeWhile_prefix _).subset (hsuf.subset hm))
  obtain ⟨r, hr2⟩ := countSpaces_line hcom ((rd e (c ++ (com ++ nl :: (text B ++ tail)))).e - (rd e (c ++ (com ++ nl :: (text B ++ tail)))).d) c t ts 0 hcc hcn htok hpl hend v' (by
    have := v'.length_le
    simp only [rd, List.length_append, List.length_cons] at this ⊢
    omega)
  unfold countSpaces
  rw [hr2, ok_bind, hlen]
  simp only [Nat.zero_add]
  rw [hlen] at hw
  cases wgt with
  | true => simp only [if_true]; rw [Nat.mod_eq_of_lt (by omega)]; rfl
  | false =>
    simp only [Bool.false_eq_true, if_false]
    rw [Nat.mod_eq_of_lt (show ts.length < 2 ^ ow by omega), Nat.mod_eq_of_lt hw]; rfl

end Pigo
