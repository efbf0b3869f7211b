import Verif.Lemmas.GraphBlank

/-!
# Loading a `.graph` file with comments that have no digits
-/

namespace Pigo

variable {W : Type} {μ μ' : Mapping} {e : Nat}

theorem rd_blank (e : Nat) (b : Bool) (s : List Byte) : rd e (blankL b s) = rd e s := by
  unfold rd; rw [blankL_length]

/-- Both files have the same byte at `e`, not a comment sign. -/
def SameTail (μ μ' : Mapping) (e : Nat) : Prop := ∃ b, μ.get e = .ok b ∧ μ'.get e = .ok b ∧ isCom b = false

theorem SameTail.left (h : SameTail μ μ' e) : TailOk μ e := by obtain ⟨b, h1, _, h3⟩ := h; exact ⟨b, h1, h3⟩
theorem SameTail.right (h : SameTail μ μ' e) : TailOk μ' e := by obtain ⟨b, _, h2, h3⟩ := h; exact ⟨b, h2, h3⟩

theorem AtDn.nc {c : Byte} {u : List Byte} (h : AtDn (c :: u)) : isCom c = false := by
  rcases h c u rfl with h | h
  · cases hc : isCom c
    · rfl
    · rw [isCom_not_digit hc] at h; cases h
  · rw [h, isCom_nl]

theorem blank_cons {c : Byte} {u : List Byte} (h : isCom c = false) : blankL false (c :: u) = c :: blankL false u := by
  rw [blankL, h]; simp

theorem atZero_cons {ν : Mapping} {c : Byte} {u : List Byte} (v : View ν e (c :: u)) :
    atZero ν (rd e (c :: u)) = if c != 48 then (.ok false : M Bool) else (ν.get (rd e u).d >>= fun b' => if isDigit b' then (.ok false : M Bool) else .ok true) := by
  have hl := v.lt
  have h1 : (rd e (c :: u)).d + 1 = (rd e u).d := congrArg Reader.d v.adv
  rw [atZero, if_neg (by omega), v.get_d, ok_bind, h1]

theorem atZero_blank {c : Byte} {u : List Byte} (ht : SameTail μ μ' e) (v : View μ e (c :: u)) (v' : View μ' e (c :: blankL false u))
    (hq : quietL false (c :: u)) (hc : isCom c = false) : atZero μ (rd e (c :: u)) = atZero μ' (rd e (c :: blankL false u)) := by
  rw [atZero_cons v, atZero_cons v']
  by_cases h0 : (c != 48) = true
  · rw [if_pos h0, if_pos h0]
  · rw [if_neg h0, if_neg h0]
    have hd : isDigit c = true := by
      have : c = 48 := by simpa using h0
      rw [this]; decide
    rw [quietL, hc] at hq
    simp only [Bool.false_eq_true, if_false] at hq
    have hh := hq.1 hd
    cases u with
    | nil =>
      obtain ⟨b, hb, hb', _⟩ := ht
      have e1 : μ.get (rd e ([] : List Byte)).d = .ok b := by rw [rd_nil]; exact hb
      have e2 : μ'.get (rd e (blankL false [])).d = .ok b := by
        rw [show blankL false [] = [] from rfl, rd_nil]; exact hb'
      rw [e1, e2]
    | cons x u =>
      have hx : isCom x = false := hh
      have vt := v.tail
      have vt' := v'.tail
      rw [blank_cons hx] at vt' ⊢
      rw [vt.get_d, vt'.get_d]

theorem count_blank (ht : SameTail μ μ' e) : ∀ (k : Nat) (s : List Byte) (c : GCount), View μ e s → View μ' e (blankL false s) →
    quietL false s → AtDn s → (whileGood (graphCount μ) k c (rd e s)) = whileGood (graphCount μ') k c (rd e s) := by
  intro k
  induction k with
  | zero => intros; rw [whileGood, whileGood]
  | succ k ih =>
    intro s c v v' hq ha
    rw [whileGood, whileGood]
    cases s with
    | nil =>
      have hg : (rd e ([] : List Byte)).good = false := good_rd v
      rw [hg, if_neg (by simp), if_neg (by simp)]
    | cons x u =>
      have hx := ha.nc
      obtain ⟨n1, n2, n3⟩ := nextL_blank hq
      rw [good_rd v]
      simp only [List.isEmpty_cons, Bool.not_false, if_true]
      have v2 := v'.of_suffix (nextL_suffix _)
      rw [n1] at v2
      rw [blank_cons hx] at v' n1
      have e1 : graphCount μ c (rd e (x :: u)) = graphCount μ' c (rd e (x :: u)) := by
        conv => rhs; rw [← rd_blank e false (x :: u), blank_cons hx]
        unfold graphCount
        rw [atNlOrEol_eq v, atNlOrEol_eq v', atZero_blank ht v v' hq hx, nextIntOrNl_any ht.left v, nextIntOrNl_any ht.right v', n1, rd_blank]
      have e2 : ∃ c', graphCount μ c (rd e (x :: u)) = .ok (c', rd e (nextL (x :: u))) := by
        unfold graphCount
        obtain ⟨z, hz⟩ := atZero_any ht.left v (by simp)
        rw [atNlOrEol_eq v, hz, nextIntOrNl_any ht.left v]
        simp only [ok_bind]
        exact ⟨_, rfl⟩
      obtain ⟨c', hc'⟩ := e2
      rw [← e1, hc', ok_bind, ok_bind]
      exact ih _ _ (v.of_suffix (nextL_suffix _)) v2 n2 n3

theorem toDigitL_digit {x : Byte} {u : List Byte} (h : isDigit x = true) : toDigitL (x :: u) = x :: u := by
  unfold toDigitL; rw [List.dropWhile_cons]; simp [h]

theorem takeDigits_blank : ∀ (s : List Byte), (blankL false s).takeWhile isDigit = s.takeWhile isDigit
  | [] => rfl
  | c :: s => by
    rw [blankL]
    split
    · rename_i hc
      rw [List.takeWhile_cons, List.takeWhile_cons, isCom_not_digit hc]; rfl
    · rw [List.takeWhile_cons, List.takeWhile_cons, takeDigits_blank s]

theorem headCom_dropDigits : ∀ {s : List Byte}, quietL false s → (∀ c t, s = c :: t → isDigit c = true) →
    headCom (s.dropWhile isDigit) = false
  | [], _, _ => rfl
  | c :: s, h, hd => by
    have hc := hd c s rfl
    have hn : isCom c = false := by
      cases hn : isCom c
      · rfl
      · rw [isCom_not_digit hn] at hc; cases hc
    rw [quietL, hn] at h
    simp only [Bool.false_eq_true, if_false] at h
    rw [List.dropWhile_cons, if_pos hc]
    cases s with
    | nil => rfl
    | cons x s =>
      by_cases hx : isDigit x = true
      · exact headCom_dropDigits h.2 (by rintro c t hh; cases hh; exact hx)
      · rw [List.dropWhile_cons, if_neg hx]; exact h.1 hc

theorem quiet_noGlue : ∀ (s : List Byte) (b : Bool), quietL b s → NoGlue s := by
  intro s b h p c d q hs hc
  subst hs
  have h1 := quietL_right p _ b h
  have hb := quietL_digit h1 hc
  rw [hb] at h1
  have hn : isCom c = false := by
    cases hn : isCom c
    · rfl
    · rw [isCom_not_digit hn] at hc; cases hc
  rw [quietL, hn] at h1
  simp only [Bool.false_eq_true, if_false] at h1
  exact h1.1 hc

theorem blank_noCom : ∀ (s : List Byte) (b : Bool), ∀ c ∈ blankL b s, isCom c = false
  | [], b, c, h => by cases b <;> simp [blankL] at h
  | x :: s, true, c, h => by
    rw [blankL] at h
    split at h
    · rename_i hx
      rcases List.mem_cons.mp h with h | h
      · rw [h, eq_of_beq hx, isCom_nl]
      · exact blank_noCom s _ c h
    · rcases List.mem_cons.mp h with h | h
      · rw [h]; decide
      · exact blank_noCom s _ c h
  | x :: s, false, c, h => by
    rw [blankL] at h
    split at h
    · rcases List.mem_cons.mp h with h | h
      · rw [h]; decide
      · exact blank_noCom s _ c h
    · rename_i hx
      rcases List.mem_cons.mp h with h | h
      · rw [h]; simpa using hx
      · exact blank_noCom s _ c h

theorem blank_noGlue (s : List Byte) (b : Bool) : NoGlue (blankL b s) := by
  intro p c d q hs _
  exact blank_noCom s b d (by rw [hs]; simp)

theorem set_blank (ht : SameTail μ μ' e) (lw ow n : Nat) : ∀ (k : Nat) (s : List Byte) (st : GSt), View μ e s → View μ' e (blankL false s) →
    quietL false s → AtDn s → graphSetN μ lw ow n k st (rd e s) = graphSetN μ' lw ow n k st (rd e s) := by
  intro k
  induction k with
  | zero => intros; rfl
  | succ k ih =>
    intro s st v v' hq ha
    rw [graphSetN, graphSetN]
    split
    case isFalse => rfl
    case isTrue hg =>
    cases s with
    | nil => rw [good_rd v] at hg; simp at hg
    | cons x u =>
      have hx := ha.nc
      obtain ⟨n1, n2, n3⟩ := nextL_blank hq
      have v2 := v'.of_suffix (nextL_suffix _)
      rw [n1] at v2
      have hng' := blank_noGlue (x :: u) false
      rw [blank_cons hx] at v' n1 hng'
      have hr : rd e (x :: u) = rd e (x :: blankL false u) := by rw [← blank_cons hx, rd_blank]
      have key : ∃ st', graphSet μ lw ow st (rd e (x :: u)) = .ok (st', rd e (nextL (x :: u))) ∧
          graphSet μ' lw ow st (rd e (x :: u)) = .ok (st', rd e (nextL (x :: u))) := by
        by_cases hn : x = nl
        · subst hn
          refine ⟨{ st with off := (st.off + 1) % 2 ^ lw, acts := st.acts ++ [.inl ((st.off + 1) % 2 ^ lw, st.ep)] }, ?_, ?_⟩
          · rw [graphSet, atNlOrEol_eq v, ok_bind, nextIntOrNl_any ht.left v]
            rfl
          · conv => lhs; rw [hr]
            rw [graphSet, atNlOrEol_eq v', ok_bind, nextIntOrNl_any ht.right v', n1, rd_blank]
            rfl
        · have hd : isDigit x = true := by
            rcases ha x u rfl with h | h
            · exact h
            · exact absurd h hn
          have hnc : nlCom x = false := by
            unfold nlCom; rw [hx]; simp [hn]
          refine ⟨{ st with ep := (st.ep + 1) % 2 ^ ow, mx := max st.mx (decVal ((toDigitL (x :: u)).takeWhile isDigit) % 2 ^ lw), acts := st.acts ++ [.inr (st.ep, decVal ((toDigitL (x :: u)).takeWhile isDigit) % 2 ^ lw)] }, ?_, ?_⟩
          · rw [graphSet, atNlOrEol_eq v, ok_bind, show (x == nl || isCom x) = false from hnc, if_neg (by simp), readInt_wrapU lw v, ok_bind]
            simp only
            rw [int_step_exact ht.left v (.inl hd) hnc (quiet_noGlue _ _ hq), ok_bind]
          · conv => lhs; rw [hr]
            rw [graphSet, atNlOrEol_eq v', ok_bind, show (x == nl || isCom x) = false from hnc, if_neg (by simp), readInt_wrapU lw v', ok_bind]
            simp only
            rw [int_step_exact ht.right v' (.inl hd) hnc hng', ok_bind, n1, rd_blank, toDigitL_digit hd, toDigitL_digit hd, ← blank_cons hx, takeDigits_blank]
      obtain ⟨st', k1, k2⟩ := key
      rw [k1, k2, ok_bind, ok_bind]
      exact ih _ _ (v.of_suffix (nextL_suffix _)) v2 n2 n3

/-! ### the parts of the threads -/

theorem startAny_blank {s : List Byte} (h : quietL false s) (T tid : Nat) :
    startAny (blankL false s) T tid = blankL false (startAny s T tid) ∧ quietL false (startAny s T tid) := by
  unfold startAny
  split
  · exact firstIntL_blank h
  · rw [blankL_length]
    have hs : s = s.take (cut s.length T tid) ++ s.drop (cut s.length T tid) := (List.take_append_drop _ _).symm
    have hq : quietL (stateL false (s.take (cut s.length T tid))) (s.drop (cut s.length T tid)) := by
      apply quietL_right; rw [← hs]; exact h
    have hb : (blankL false s).drop (cut s.length T tid) = blankL (stateL false (s.take (cut s.length T tid))) (s.drop (cut s.length T tid)) := by
      generalize cut s.length T tid = j at hs
      conv => lhs; rw [hs, blankL_append]
      rw [List.drop_append, blankL_length, List.length_take, List.drop_eq_nil_of_le (by rw [blankL_length, List.length_take]; omega), List.nil_append]
      by_cases h : j ≤ s.length
      · rw [Nat.min_eq_left h, Nat.sub_self, List.drop_zero]
      · rw [List.drop_eq_nil_of_le (as := s) (i := j) (by omega)]
        cases stateL false (s.take j) <;> simp [blankL]
    rw [hb]
    exact nextIntL_blank hq

/-- Both passes do the same in a part. -/
theorem region_sameBlank {s : List Byte} (ht : SameTail μ μ' e) (v : View μ e s) (v' : View μ' e (blankL false s)) (hq : quietL false s) {T tid : Nat}
    (hT : tid < T) {R : Reader} (hR : R = (rd e (startAny s T tid)).smallerEnd (rd e (startAny s T (tid + 1)))) :
    graphRegion μ (rd e s) T tid = .ok R ∧ graphRegion μ' (rd e s) T tid = .ok R ∧
    graphCountAll μ R = graphCountAll μ' R ∧ ∀ lw ow n k st, graphSetN μ lw ow n k st R = graphSetN μ' lw ow n k st R := by
  subst hR
  have r1 := graphRegion_start v ht.left.readable hT
  have r2 := graphRegion_start v' ht.right.readable hT
  obtain ⟨a1, a2⟩ := startAny_blank hq T tid
  obtain ⟨b1, b2⟩ := startAny_blank hq T (tid + 1)
  rw [a1, b1, rd_blank, rd_blank, rd_blank] at r2
  refine ⟨r1, r2, ?_⟩
  have hS := startAny_suffix s T tid
  have hX := startAny_suffix s T (tid + 1)
  have hSd := startAny_digit s T tid
  have hXd := startAny_digit s T (tid + 1)
  have vS' := v'.of_suffix (startAny_suffix (blankL false s) T tid)
  have vX' := v'.of_suffix (startAny_suffix (blankL false s) T (tid + 1))
  rw [a1] at vS'
  rw [b1] at vX'
  have vS := v.of_suffix hS
  have vX := v.of_suffix hX
  clear r1 r2 a1 b1
  generalize startAny s T tid = S at *
  generalize startAny s T (tid + 1) = X at *
  have both : ∀ {e : Nat} {G : List Byte}, SameTail μ μ' e → View μ e G → View μ' e (blankL false G) → quietL false G → AtDn G →
      graphCountAll μ (rd e G) = graphCountAll μ' (rd e G) ∧
      ∀ lw ow n k st, graphSetN μ lw ow n k st (rd e G) = graphSetN μ' lw ow n k st (rd e G) := by
    intro e G ht v v' hq ha
    refine ⟨?_, fun lw ow n k st => set_blank ht lw ow n k G st v v' hq ha⟩
    rw [graphCountAll, graphCountAll, count_blank ht _ G _ v v' hq ha]
  cases X with
  | nil =>
    have h1 : (rd e S).smallerEnd (rd e []) = rd e S := by
      unfold Reader.smallerEnd rd
      simp
    rw [h1]
    exact both ht vS vS' a2 (fun c t h => .inl (hSd c t h))
  | cons c t =>
    by_cases hlen : (c :: t).length < S.length
    · obtain ⟨G, hG⟩ := List.suffix_of_suffix_length_le hX hS (by omega)
      subst hG
      rw [smallerEnd_rd vS]
      have hst : stateL false G = false := quietL_digit (quietL_right _ _ _ a2) (hXd c t rfl)
      have hqG := quietL_left _ _ _ a2 hst
      have hc : isCom c = false := by
        have := hXd c t rfl
        cases hc : isCom c with
        | false => rfl
        | true => rw [isCom_not_digit hc] at this; cases this
      rw [blankL_append, hst] at vS'
      have g1 := vX.get_cons
      rw [blank_cons hc] at vS' vX'
      have g2 := vX'.get_cons
      have vG' := vS'.shrink
      have hl : (c :: blankL false t).length = (c :: t).length := by simp [blankL_length]
      rw [hl] at vG'
      rw [blankL_length] at g2
      exact both ⟨c, g1, g2, hc⟩ vS.shrink vG' hqG (by
        intro c' t' h
        exact .inl (hSd c' (t' ++ c :: t) (by rw [h]; rfl)))
    · have hle : ((rd e S).smallerEnd (rd e (c :: t))).e ≤ ((rd e S).smallerEnd (rd e (c :: t))).d := by
        have := vX.length_le
        unfold Reader.smallerEnd
        split
        · simp only [rd]; omega
        · rename_i h
          simp only [rd, List.length_cons] at h this
          omega
      generalize (rd e S).smallerEnd (rd e (c :: t)) = R at hle
      have hg : R.good = false := by simp [Reader.good]; omega
      constructor
      · rw [graphCountAll, graphCountAll, Nat.sub_eq_zero_of_le hle, whileGood, whileGood]
      · intro lw ow n k st
        cases k with
        | zero => rw [graphSetN, graphSetN]
        | succ k => rw [graphSetN, graphSetN, hg]; simp

end Pigo
