import Verif.Lemmas.TensorFile

/-!
# Tensors from text: from the specification to the scanner
-/

namespace Pigo

variable {W : Type} {μ : Mapping} {e : Nat}

theorem noCom_strip (l : List Byte) : ∀ b ∈ Spec.stripComment l, isCom b = false := by
  intro b hb
  have := List.all_eq_true.mp (List.all_takeWhile (p := fun b => !Spec.isComment b)) b hb
  rw [← isCom_spec]; simpa using this

theorem strip_com {com : List Byte} (h : ∀ b r, com = b :: r → isCom b = true) : Spec.stripComment com = [] := by
  cases com with
  | nil => rfl
  | cons b r => rw [stripComment_cons, if_pos (h b r rfl)]

theorem strip_eq {c com : List Byte} (hc : ∀ b ∈ c, isCom b = false) (h : ∀ b r, com = b :: r → isCom b = true) : Spec.stripComment (c ++ com) = c := by
  rw [strip_no_comment c (fun b hb => by rw [isCom_spec]; exact hc b hb), strip_com h, List.append_nil]

theorem first_word (bl d s : List Byte) (hbl : ∀ b ∈ bl, Spec.isBlank b = true) (hd : d ≠ []) (hdd : ∀ b ∈ d, isDigit b = true) :
    firstIntL (bl ++ (d ++ s)) = d ++ s := by
  unfold firstIntL
  rw [toStop_blanks isDigit (fun b hb => (blank_not hb).1) bl _ hbl]
  cases d with
  | nil => exact absurd rfl hd
  | cons a d =>
    have ha := hdd a (List.mem_cons_self ..)
    rw [List.cons_append, toStop.eq_3, isDigit_not_com ha, ha]; simp

theorem stop_digit {r com : List Byte} (hr : ∀ b s, r = b :: s → Spec.isBlank b = true) (hcom : ∀ b r, com = b :: r → isCom b = true) :
    ∀ b s, r ++ com = b :: s → isDigit b = false := by
  intro b s hs
  cases r with
  | nil => exact isCom_not_digit (hcom b s hs)
  | cons c r =>
    rw [List.cons_append] at hs
    injection hs with hs1 hs2; subst hs1
    exact (blank_not (hr _ _ rfl)).1

/-- A line whose first words are the digits of coordinates. -/
theorem coords_of_tokens (lw : Nat) {com : List Byte} (hcom : ∀ b r, com = b :: r → isCom b = true) : ∀ (k : Nat) (c : List Byte), k ≤ (Spec.tokens c).length →
    (∀ t ∈ (Spec.tokens c).take k, t.all Spec.isDigit = true) →
    ∃ r, r <:+ c ∧ CoordsAt lw (((Spec.tokens c).take k).map Spec.decimal) (c ++ com) (r ++ com) ∧ Spec.tokens r = (Spec.tokens c).drop k ∧
      (0 < k → ∀ b s, r = b :: s → Spec.isBlank b = true)
  | 0, c, _, _ => ⟨c, List.suffix_refl _, by simp [CoordsAt], by simp, fun h => absurd h (Nat.lt_irrefl 0)⟩
  | k+1, c, hk, hd => by
    cases hts : Spec.tokens c with
    | nil => rw [hts] at hk; simp at hk
    | cons t ts =>
      obtain ⟨bl, r, e1, p1, q1, _, s1, t1⟩ := tokens_cons _ _ _ hts
      rw [hts] at hk hd
      have htd : ∀ b ∈ t, isDigit b = true := by
        intro b hb; rw [← isDigit_spec]
        exact List.all_eq_true.mp (hd t (by simp)) b hb
      obtain ⟨r', hr1, hr2, hr3, hr4⟩ := coords_of_tokens lw hcom k r (by rw [t1]; simpa using hk) (by
        rw [t1]; intro t' ht'; exact hd t' (by rw [List.take_succ_cons]; exact List.mem_cons_of_mem _ ht'))
      rw [t1] at hr2 hr3
      have hf : firstIntL (c ++ com) = t ++ (r ++ com) := by
        rw [e1, show bl ++ t ++ r ++ com = bl ++ (t ++ (r ++ com)) by simp]
        exact first_word bl t _ p1 q1 htd
      obtain ⟨k1, k2⟩ := takeWhile_word isDigit t (r ++ com) htd (stop_digit s1 hcom)
      refine ⟨r', hr1.trans ⟨bl ++ t, by rw [e1]⟩, ?_, ?_, fun _ => ?_⟩
      · rw [List.take_succ_cons, List.map_cons]
        refine ⟨by rw [hf]; simp [q1], by rw [hf, k1, decimal_eq], ?_⟩
        rw [hf, k2]; exact hr2
      · rw [List.drop_succ_cons]; exact hr3
      · cases k with
        | zero =>
          have : r' = r := by
            have h : r ++ com = r' ++ com := by simpa [CoordsAt] using hr2
            exact (List.append_cancel_right h).symm
          rw [this]; exact s1
        | succ k => exact hr4 (by omega)

/-- What is left of a weighted line after the coordinates is read as the weight. -/
theorem wTail_of {lw : Nat} {wk : WKind W} {entry : List Byte → Option (Nat × Nat × W)} {wp : Nat × Nat × W → Prop} (hf : FormatOk lw wk entry wp)
    {r com : List Byte} {w : W} (hcom : ∀ b r, com = b :: r → isCom b = true) (hrc : ∀ b ∈ r, isCom b = false) (hn : nl ∉ r ++ com)
    (hb : ∀ b s, r = b :: s → Spec.isBlank b = true)
    (he : entry (str "0 0" ++ (r ++ com)) = some (0, 0, w)) (hwp : wp (0, 0, w)) : WTail wk (r ++ com) w := by
  have hn' : nl ∉ str "0 0" ++ (r ++ com) := by
    intro hm
    rcases List.mem_append.mp hm with h | h
    · revert h; decide
    · exact hn h
  have hl := hf _ hn' _ he hwp
  have hs : str "0 0" = [48, 32, 48] := by decide
  have h1 : firstIntL (str "0 0" ++ (r ++ com)) = str "0 0" ++ (r ++ com) := by
    rw [hs]
    have := first_word [] [48] ([32, 48] ++ (r ++ com)) (by simp) (by simp) (by decide)
    simpa using this
  have h2 : (str "0 0" ++ (r ++ com)).dropWhile isDigit = [32, 48] ++ (r ++ com) := by
    rw [hs]
    have := (takeWhile_word isDigit [48] ([32, 48] ++ (r ++ com)) (by decide) (by
      intro b s h
      injection h with h1 _
      rw [← h1]; decide)).2
    simpa using this
  have h3 : nextIntL (firstIntL (str "0 0" ++ (r ++ com))) = [48] ++ (r ++ com) := by
    unfold nextIntL
    rw [h1, h2]
    exact first_word [32] [48] (r ++ com) (by decide) (by simp) (by decide)
  have h4 := (takeWhile_word isDigit [48] (r ++ com) (by decide) (stop_digit hb hcom)).2
  have := hl.wt
  rw [h3, h4] at this
  exact this

/-- The four formats of tensor lines; `k` is the order. -/
inductive TFormat : {W : Type} → WKind W → (Nat → List Byte → Option (List Nat × W)) → (List Nat × W → Prop) → Prop
  | none : TFormat wNone Spec.tensorEntry0 (fun _ => True)
  | uint (ww : Nat) : TFormat (wUint ww) (Spec.tensorEntryW Spec.parseUnsigned) (fun e => e.2 < 2 ^ ww)
  | sint (ww : Nat) : TFormat (wSint ww) (Spec.tensorEntryW Spec.parseSigned) (fun e => e.2.natAbs < 2 ^ (ww - 1))
  | float {V : Type} (ops : FpOps V) : TFormat (wFp ops) (Spec.tensorEntryW (fun t => (Spec.parseLit t).map (evalLit ops))) (fun _ => True)

theorem coords_some {k : Nat} {ts : List (List Byte)} {xs : List Nat} (h : Spec.coords k ts = some xs) :
    k ≤ ts.length ∧ (∀ t ∈ ts.take k, t.all Spec.isDigit = true) ∧ xs = (ts.take k).map Spec.decimal ∧ xs.length = k := by
  unfold Spec.coords at h
  split at h
  · rename_i hc
    injection h with h
    refine ⟨hc.1, hc.2, h.symm, ?_⟩
    rw [← h, List.length_map, List.length_take, Nat.min_eq_left hc.1]
  · cases h

/-- A word with a digit keeps the scanner in the line. -/
theorem first_ne_of_token {c com t : List Byte} {ts : List (List Byte)} (hn : nl ∉ c ++ com) (hcom : ∀ b r, com = b :: r → isCom b = true) (hc : ∀ b ∈ c, isCom b = false)
    (h : Spec.tokens c = t :: ts) (hd : ∃ b ∈ t, isDigit b = true) : firstIntL (c ++ com) ≠ [] := by
  rw [Ne, firstIntL_nil_iff _ hn]
  unfold Spec.ints
  rw [strip_eq hc hcom, List.map_eq_nil_iff]
  obtain ⟨bl, r, e1, _⟩ := tokens_cons _ _ _ h
  obtain ⟨b, hb, hd⟩ := hd
  have hbc : b ∈ c := by rw [e1]; simp [hb]
  intro hm
  have hline := digitRuns_line c (fun h => hn (List.mem_append_left _ h))
  have hs : Spec.stripComment c = c := by
    have := strip_eq (com := []) hc (by simp)
    rwa [List.append_nil] at this
  rw [hs, hm] at hline
  split at hline
  · rename_i hf
    have h2 : ∀ (s : List Byte), (∀ b ∈ s, isCom b = false) → b ∈ s → toStop isDigit false s ≠ [] := by
      intro s
      induction s with
      | nil => intro _ h; simp at h
      | cons a s ih =>
        intro hcs hbs
        rw [toStop.eq_3, hcs a (by simp)]
        by_cases ha : isDigit a = true
        · simp [ha]
        · simp only [ha, Bool.false_eq_true, if_false]
          rcases List.mem_cons.mp hbs with rfl | hbs
          · exact absurd hd ha
          · exact ih (fun b hb => hcs b (List.mem_cons_of_mem _ hb)) hbs
    exact h2 c hc hbc hf
  · cases hline

theorem parse_digit_unsigned {t : List Byte} {v : Nat} (hne : t ≠ []) (h : Spec.parseUnsigned t = some v) : ∃ b ∈ t, isDigit b = true := by
  unfold Spec.parseUnsigned at h
  split at h
  · rename_i hd
    cases t with
    | nil => exact absurd rfl hne
    | cons a t => exact ⟨a, by simp, by rw [← isDigit_spec]; exact List.all_eq_true.mp hd a (by simp)⟩
  · cases h

theorem parse_digit_signed {t : List Byte} {v : Int} (h : Spec.parseSigned t = some v) : ∃ b ∈ t, isDigit b = true := by
  have aux : ∀ ds : List Byte, ds ≠ [] → ds.all Spec.isDigit = true → ∃ b ∈ ds, isDigit b = true := by
    intro ds hne hd
    cases ds with
    | nil => exact absurd rfl hne
    | cons a t => exact ⟨a, by simp, by rw [← isDigit_spec]; exact List.all_eq_true.mp hd a (by simp)⟩
  cases t with
  | nil => cases h
  | cons c ds =>
    rw [Spec.parseSigned] at h
    split at h
    · split at h
      · rename_i hh
        obtain ⟨b, hb, hd⟩ := aux ds hh.1 hh.2
        exact ⟨b, List.mem_cons_of_mem _ hb, hd⟩
      · cases h
    · split at h
      · split at h
        · rename_i hh
          obtain ⟨b, hb, hd⟩ := aux ds hh.1 hh.2
          exact ⟨b, List.mem_cons_of_mem _ hb, hd⟩
        · cases h
      · split at h
        · rename_i hh
          exact aux _ (by simp) hh
        · cases h

theorem parse_digit_lit {t : List Byte} {l : Spec.Lit} (h : Spec.parseLit t = some l) : ∃ b ∈ t, isDigit b = true := by
  obtain ⟨hok, ht⟩ := parseLit_ok h
  obtain ⟨h1, h2, h3, _⟩ := hok
  have aux : ∀ ds : List Byte, ds ≠ [] → ds.all Spec.isDigit = true → ∃ b ∈ ds, isDigit b = true := by
    intro ds hne hd
    cases ds with
    | nil => exact absurd rfl hne
    | cons a t => exact ⟨a, by simp, by rw [← isDigit_spec]; exact List.all_eq_true.mp hd a (by simp)⟩
  rw [← ht]
  rcases h3 with h3 | ⟨f, hf, hne⟩
  · obtain ⟨b, hb, hd⟩ := aux _ h3 h1
    exact ⟨b, by unfold Spec.Lit.text; simp [hb], hd⟩
  · obtain ⟨b, hb, hd⟩ := aux _ hne (h2 f hf)
    exact ⟨b, by unfold Spec.Lit.text; simp [Spec.Lit.fracText, hf, hb], hd⟩

theorem words_fake {r com : List Byte} (hcom : ∀ b r, com = b :: r → isCom b = true) (hrc : ∀ b ∈ r, isCom b = false) (hb : ∀ b s, r = b :: s → Spec.isBlank b = true) :
    Spec.stripComment (str "0 0" ++ (r ++ com)) = str "0 0" ++ r ∧ Spec.tokens (str "0 0" ++ r) = str "0" :: str "0" :: Spec.tokens r := by
  refine ⟨?_, ?_⟩
  · rw [← List.append_assoc]
    refine strip_eq (fun b hb' => ?_) hcom
    rcases List.mem_append.mp hb' with h | h
    · clear hb'; revert h b; decide
    · exact hrc b h
  · have w0 : Word (str "0") := ⟨by decide, by decide⟩
    have hs : str "0 0" ++ r = str "0" ++ 32 :: (str "0" ++ r) := by rw [show str "0 0" = [48, 32, 48] by decide, show str "0" = [48] by decide]; rfl
    rw [hs, tokens_append _ _ _ (by decide), tokens_word w0]
    cases r with
    | nil => rw [List.append_nil, tokens_word w0]; simp [Spec.tokens]
    | cons b s =>
      have hbb := hb b s rfl
      rw [tokens_append _ _ _ hbb, tokens_word w0]
      have : Spec.tokens (b :: s) = Spec.tokens s := by
        have := tokens_append [] s b hbb
        rw [List.nil_append] at this
        rw [this]; simp [Spec.tokens]
      rw [this]; rfl

theorem entryW_fake {parse : List Byte → Option W} {r com t : List Byte} {ts : List (List Byte)} {v : W} (hcom : ∀ b r, com = b :: r → isCom b = true)
    (hrc : ∀ b ∈ r, isCom b = false) (hb : ∀ b s, r = b :: s → Spec.isBlank b = true) (ht : Spec.tokens r = t :: ts) (hp : parse t = some v) :
    Spec.entryW parse (str "0 0" ++ (r ++ com)) = some (0, 0, v) := by
  obtain ⟨h1, h2⟩ := words_fake hcom hrc hb
  unfold Spec.entryW
  rw [h1, h2, ht]
  simp only [hp]
  rw [if_pos (by decide)]
  rfl

theorem digitRuns_blanks (bl s : List Byte) (h : ∀ b ∈ bl, Spec.isBlank b = true) : Spec.digitRuns (bl ++ s) = Spec.digitRuns s := by
  induction bl with
  | nil => rfl
  | cons a bl ih =>
    rw [List.cons_append, digitRuns_cons_nondigit _ _ (blank_not (h a (List.mem_cons_self ..))).1]
    exact ih (fun b hb => h b (List.mem_cons_of_mem _ hb))

theorem entryU_fake {r com t : List Byte} {ts : List (List Byte)} {v : Nat} (hcom : ∀ b r, com = b :: r → isCom b = true)
    (hrc : ∀ b ∈ r, isCom b = false) (hb : ∀ b s, r = b :: s → Spec.isBlank b = true) (ht : Spec.tokens r = t :: ts) (hp : Spec.parseUnsigned t = some v) :
    Spec.entryU (str "0 0" ++ (r ++ com)) = some (0, 0, v) := by
  obtain ⟨h1, _⟩ := words_fake hcom hrc hb
  obtain ⟨bl, r', e1, p1, q1, _, s1, _⟩ := tokens_cons _ _ _ ht
  unfold Spec.parseUnsigned at hp
  split at hp
  · rename_i hd
    injection hp with hp
    have htd : ∀ b ∈ t, isDigit b = true := by
      intro b hb; rw [← isDigit_spec]; exact List.all_eq_true.mp hd b hb
    have hruns : Spec.digitRuns (str "0 0" ++ r) = str "0" :: str "0" :: t :: Spec.digitRuns r' := by
      rw [show str "0 0" = [48] ++ ([32] ++ [48]) by decide, List.append_assoc, List.append_assoc,
        digitRuns_run [48] _ (by decide) (by simp) (by intro c t' h; injection h with h _; rw [← h]; decide),
        digitRuns_blanks [32] _ (by decide), digitRuns_run [48] r (by decide) (by simp) (fun c s hs => (blank_not (hb c s hs)).1), e1, List.append_assoc,
        digitRuns_blanks bl _ p1, digitRuns_run t r' htd q1 (fun c s hs => (blank_not (s1 c s hs)).1)]
      rfl
    unfold Spec.entryU Spec.ints
    rw [h1, hruns]
    simp only [List.map_cons]
    rw [hp]; rfl
  · cases hp

theorem TFormat.law {wk : WKind W} {entry : Nat → List Byte → Option (List Nat × W)} {wp : List Nat × W → Prop} (hf : TFormat wk entry wp) (lw : Nat)
    {k : Nat} (hk : 0 < k) {l : List Byte} (hn : nl ∉ l) {en : List Nat × W} (he : entry k l = some en) (hwp : wp en) : TLaw lw wk l en ∧ en.1.length = k := by
  obtain ⟨com, hl, hcom⟩ := strip_append l
  have hcc := noCom_strip l
  generalize hc : Spec.stripComment l = c at hl hcc
  subst hl
  -- weighted formats
  have weighted : ∀ {V : Type} {wk : WKind V} {parse : List Byte → Option V} {en : List Nat × V},
      Spec.tensorEntryW parse k (c ++ com) = some en → (∀ t, t ≠ [] → ∀ v, parse t = some v → ∃ b ∈ t, isDigit b = true) →
      (∀ r t ts v, Spec.tokens r = t :: ts → parse t = some v → (∀ b s, r = b :: s → Spec.isBlank b = true) → (∀ b ∈ r, isCom b = false) → nl ∉ r ++ com →
        v = en.2 → WTail wk (r ++ com) v) →
      TLaw lw wk (c ++ com) en ∧ en.1.length = k := by
    intro V wk parse en he hdig hwt
    unfold Spec.tensorEntryW Spec.words at he
    rw [hc] at he
    split at he
    · rename_i xs t hxs ht
      obtain ⟨h1, h2, h3, h4⟩ := coords_some hxs
      cases hp : parse t with
      | none => rw [hp] at he; cases he
      | some v =>
        rw [hp] at he
        simp only [Option.map_some, Option.some.injEq] at he
        subst he
        obtain ⟨r, hr1, hr2, hr3, hr4⟩ := coords_of_tokens lw hcom k c h1 h2
        have hdrop : (Spec.tokens c).drop k = t :: (Spec.tokens c).drop (k + 1) := by
          obtain ⟨hlt, hg⟩ := List.getElem?_eq_some_iff.mp ht
          rw [List.drop_eq_getElem_cons hlt, hg]
        rw [hdrop] at hr3
        have hrn : nl ∉ r ++ com := by
          intro hm
          rcases List.mem_append.mp hm with h | h
          · exact hn (List.mem_append_left _ (hr1.subset h))
          · exact hn (List.mem_append_right _ h)
        have hrc : ∀ b ∈ r, isCom b = false := fun b hb => hcc b (hr1.subset hb)
        obtain ⟨bl, r', e1, p1, q1, _⟩ := tokens_cons _ _ _ hr3
        refine ⟨⟨hn, ?_, r ++ com, by rw [h3]; exact hr2, ?_, ?_⟩, h4⟩
        · intro h0
          simp only at h0
          rw [h0] at h4
          simp at h4; omega
        · exact hwt r t _ v hr3 hp (hr4 hk) hrc hrn rfl
        · intro _
          exact first_ne_of_token hrn hcom hrc hr3 (hdig t q1 v hp)
    · cases he
  cases hf with
  | none =>
    unfold Spec.tensorEntry0 Spec.words at he
    rw [hc] at he
    cases hxs : Spec.coords k (Spec.tokens c) with
    | none => rw [hxs] at he; cases he
    | some xs =>
      rw [hxs] at he
      simp only [Option.map_some, Option.some.injEq] at he
      subst he
      obtain ⟨h1, h2, h3, h4⟩ := coords_some hxs
      obtain ⟨r, hr1, hr2, hr3, hr4⟩ := coords_of_tokens lw hcom k c h1 h2
      refine ⟨⟨hn, ?_, r ++ com, by rw [h3]; exact hr2, ?_, fun h => by cases h⟩, h4⟩
      · intro h0
        simp only at h0
        rw [h0] at h4
        simp at h4; omega
      · exact fun μ e rest _ _ => ⟨⟨_, List.suffix_refl _, rfl⟩, ⟨_, List.suffix_refl _, rfl⟩⟩
  | uint ww =>
    refine weighted he (fun t hne v hp => parse_digit_unsigned hne hp) (fun r t ts v ht hp hb hrc hrn hv => ?_)
    exact wTail_of (format_uint lw ww) hcom hrc hrn hb (entryU_fake hcom hrc hb ht hp) (by rw [hv]; exact hwp)
  | sint ww =>
    refine weighted he (fun t hne v hp => parse_digit_signed hp) (fun r t ts v ht hp hb hrc hrn hv => ?_)
    exact wTail_of (format_sint lw ww) hcom hrc hrn hb (entryW_fake hcom hrc hb ht hp) (by rw [hv]; exact hwp)
  | float ops =>
    refine weighted he (fun t hne v hp => ?_) (fun r t ts v ht hp hb hrc hrn hv => ?_)
    · cases hl : Spec.parseLit t with
      | none => rw [hl] at hp; cases hp
      | some l => exact parse_digit_lit hl
    · exact wTail_of (format_fp lw ops) hcom hrc hrn hb (entryW_fake hcom hrc hb ht hp) trivial

end Pigo
