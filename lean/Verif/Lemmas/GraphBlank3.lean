import Verif.Lemmas.GraphBlank2
import Verif.Spec.GraphComments
import Verif.Props.EdgeList2

/-!
# A `.graph` file and the same file with blanks for comments: same plan
-/

namespace Pigo

variable {W : Type} {μ μ' : Mapping} {e : Nat}

theorem mapE_congr_mem {α β : Type} {f g : α → M β} : ∀ {l : List α}, (∀ a ∈ l, f a = g a) → mapE f l = mapE g l
  | [], _ => rfl
  | a :: l, h => by
    rw [mapE, mapE, h a (by simp), mapE_congr_mem (fun x hx => h x (List.mem_cons_of_mem _ hx))]

theorem mapE_mem_src {α β : Type} {f : α → M β} : ∀ {l : List α} {r : List β}, mapE f l = .ok r → ∀ b ∈ r, ∃ a ∈ l, f a = .ok b
  | [], r, h, b, hb => by
    cases h; simp at hb
  | a :: l, r, h, b, hb => by
    rw [mapE] at h
    cases h1 : f a with
    | error x => rw [h1] at h; cases h
    | ok y =>
      rw [h1, ok_bind] at h
      cases h2 : mapE f l with
      | error x => rw [h2] at h; cases h
      | ok ys =>
        rw [h2, ok_bind] at h
        cases h
        rcases List.mem_cons.mp hb with hb | hb
        · exact ⟨a, by simp, by rw [h1, hb]⟩
        · obtain ⟨z, hz, hf⟩ := mapE_mem_src h2 b hb
          exact ⟨z, List.mem_cons_of_mem _ hz, hf⟩

/-- The plans are the same if the headers are. -/
theorem graphPlan_blank {s : List Byte} (ht : SameTail μ μ' e) (v : View μ e s) (v' : View μ' e (blankL false s)) (hq : quietL false s)
    {lw ow T n m : Nat} {r r' : Reader} (h : graphHeader μ lw ow r = .ok (n, m, rd e s)) (h' : graphHeader μ' lw ow r' = .ok (n, m, rd e s)) :
    graphPlan μ lw ow T r = graphPlan μ' lw ow T r' := by
  have hreg : ∀ tid ∈ List.range T, graphRegion μ (rd e s) T tid = graphRegion μ' (rd e s) T tid := by
    intro tid hm
    obtain ⟨h1, h2, _⟩ := region_sameBlank ht v v' hq (List.mem_range.mp hm) rfl
    rw [h1, h2]
  unfold graphPlan
  rw [h, h', ok_bind, ok_bind]
  simp only
  rw [mapE_congr_mem hreg]
  cases hR : mapE (graphRegion μ' (rd e s) T) (List.range T) with
  | error x => rw [error_bind, error_bind]
  | ok regions =>
    rw [ok_bind, ok_bind]
    have hsame : ∀ R ∈ regions, graphCountAll μ R = graphCountAll μ' R ∧ ∀ lw ow n k st, graphSetN μ lw ow n k st R = graphSetN μ' lw ow n k st R := by
      intro R hm
      obtain ⟨tid, htid, hf⟩ := mapE_mem_src hR R hm
      obtain ⟨_, h2, h3, h4⟩ := region_sameBlank ht v v' hq (List.mem_range.mp htid) rfl
      rw [h2] at hf
      cases hf
      exact ⟨h3, h4⟩
    rw [mapE_congr_mem (fun R hm => (hsame R hm).1)]
    cases mapE (graphCountAll μ') regions with
    | error x => rw [error_bind, error_bind]
    | ok counts =>
      rw [ok_bind, ok_bind]
      rw [mapE_congr_mem (f := graphSetAll μ lw ow _ _ _ _) (g := graphSetAll μ' lw ow _ _ _ _)]
      intro p hp
      obtain ⟨tid, R⟩ := p
      unfold graphSetAll
      exact (hsame R (List.of_mem_zip hp).2).2 _ _ _ _ _

/-- The header. -/
theorem graphHeader_text {μ : Mapping} (hpad : 0 < μ.pad) {n m : Nat} {pre : List (List Byte)} {hdr rest : List Byte} {t : List Nat}
    (htext : μ.bytes = text pre ++ (hdr ++ nl :: rest)) (hnp : NoNl pre) (hns : nl ∉ hdr) (hpre : ∀ l ∈ pre, Spec.ints l = [])
    (hhdr : Spec.ints hdr = n :: m :: t) (lw ow : Nat) :
    graphHeader μ lw ow (fileReader μ) = .ok (n % 2 ^ lw, m % 2 ^ ow, rd μ.bytes.length (firstIntL rest)) ∧
      View μ μ.bytes.length (firstIntL rest) := by
  have hr : Readable μ μ.bytes.length := by unfold Readable; omega
  have v := View.full μ
  have hrd : fileReader μ = rd μ.bytes.length μ.bytes := by simp [fileReader, rd]
  have hfst : firstIntL μ.bytes = firstIntL hdr ++ nl :: rest := by
    rw [htext, firstInt_blank hnp hpre]
    show toStop isDigit false _ = _
    rw [toStop_line isDigit isDigit_nl hdr rest hns, if_neg]
    intro hc
    rw [firstIntL_nil_iff hdr hns, hhdr] at hc; cases hc
  have v0 : View μ μ.bytes.length (firstIntL hdr ++ nl :: rest) := by
    rw [← hfst]
    exact v.of_suffix (toStop_suffix _ _ _)
  obtain ⟨l1, n1, i1, v1, r1, m1⟩ := readInt_step hr lw hns hhdr v0
  obtain ⟨m1, v1'⟩ := m1 (by simp)
  obtain ⟨l2, n2, i2, v2, r2, m2⟩ := readInt_step hr ow n1 i1 v1'
  have he : eolL (l2 ++ nl :: rest) = nl :: rest := eolL_line l2 rest n2
  have ve : View μ μ.bytes.length (nl :: rest) := v2.append
  have hsuf : firstIntL rest <:+ rest := toStop_suffix _ _ _
  refine ⟨?_, ve.tail.of_suffix hsuf⟩
  unfold graphHeader
  rw [hrd, moveToFirstInt_eq v hr, hfst, ok_bind, r1, ok_bind]
  simp only []
  rw [m1, ok_bind, r2, ok_bind]
  simp only []
  rw [moveToEol_eq v2, he, ok_bind, moveToNextInt_eq ve hr, nextIntL_nl, ok_bind]

/-! ### lines -/

theorem comment_cons (c : Byte) (l : List Byte) : Spec.comment (c :: l) = if isCom c then c :: l else Spec.comment l := by
  unfold Spec.comment
  rw [List.dropWhile_cons, isCom_spec]
  cases isCom c <;> simp

theorem strip_append_comment (l : List Byte) : Spec.stripComment l ++ Spec.comment l = l := List.takeWhile_append_dropWhile

/-- A comment up to the end of its line. -/
theorem blankL_comment (rest : List Byte) : ∀ (l : List Byte), nl ∉ l → blankL true (l ++ nl :: rest) = l.map (fun _ => 32) ++ nl :: blankL false rest
  | [], _ => by rw [List.nil_append, blankL]; simp
  | c :: l, h => by
    have hc : ¬ (c == nl) = true := by intro hc; exact h (by rw [← eq_of_beq hc]; simp)
    rw [List.cons_append, blankL, if_neg hc, blankL_comment rest l (fun hm => h (List.mem_cons_of_mem _ hm))]
    rfl

theorem blankL_line (rest : List Byte) : ∀ (l : List Byte), nl ∉ l → blankL false (l ++ nl :: rest) = Spec.blankComment l ++ nl :: blankL false rest
  | [], _ => by rw [List.nil_append, blankL, isCom_nl]; rfl
  | c :: l, h => by
    have hl : nl ∉ l := fun hm => h (List.mem_cons_of_mem _ hm)
    rw [List.cons_append, blankL, Spec.blankComment, stripComment_cons, comment_cons]
    split
    · rw [blankL_comment rest l hl]; rfl
    · rw [blankL_line rest l hl]; rfl

theorem blankL_plain : ∀ (l : List Byte), Spec.comment l = [] → blankL false l = l
  | [], _ => rfl
  | c :: l, h => by
    rw [comment_cons] at h
    split at h
    · cases h
    · rename_i hc
      rw [blankL, if_neg hc, blankL_plain l h]

theorem blankL_text (tail : List Byte) (ht : Spec.comment tail = []) : ∀ (body : List (List Byte)), NoNl body →
    blankL false (text body ++ tail) = text (body.map Spec.blankComment) ++ tail
  | [], _ => by rw [text_nil, List.map_nil, text_nil]; exact blankL_plain tail ht
  | l :: body, h => by
    rw [text_cons, List.map_cons, text_cons, show l ++ nl :: text body ++ tail = l ++ nl :: (text body ++ tail) from by simp,
      blankL_line _ l (h l (by simp)), blankL_text tail ht body (fun x hx => h x (List.mem_cons_of_mem _ hx))]
    simp

theorem quietL_comment (rest : List Byte) (hr : headCom rest = false) (hq : quietL false rest) : ∀ (l : List Byte), nl ∉ l →
    (∀ b ∈ l, Spec.isDigit b = false) → quietL true (l ++ nl :: rest)
  | [], _, _ => by rw [List.nil_append, quietL]; simp [hr, hq]
  | c :: l, h, hd => by
    have hc : ¬ (c == nl) = true := by intro hc; exact h (by rw [← eq_of_beq hc]; simp)
    rw [List.cons_append, quietL, if_neg hc]
    exact ⟨by rw [← isDigit_spec]; exact hd c (by simp), quietL_comment rest hr hq l (fun hm => h (List.mem_cons_of_mem _ hm)) (fun b hb => hd b (List.mem_cons_of_mem _ hb))⟩

theorem quietL_line (rest : List Byte) (hq : quietL false rest) : ∀ (l : List Byte), nl ∉ l → (∀ b ∈ Spec.comment l, Spec.isDigit b = false) →
    (Spec.comment l ≠ [] → ∀ b, (Spec.stripComment l).getLast? = some b → Spec.isDigit b = false) →
    (Spec.comment l ≠ [] → headCom rest = false) → quietL false (l ++ nl :: rest)
  | [], _, _, _, _ => by
    rw [List.nil_append, quietL, isCom_nl]
    simpa [isDigit_nl] using hq
  | c :: l, h, hd, ha, hr => by
    have hl : nl ∉ l := fun hm => h (List.mem_cons_of_mem _ hm)
    rw [comment_cons] at hd ha hr
    rw [stripComment_cons] at ha
    rw [List.cons_append, quietL]
    split
    · rename_i hc
      rw [if_pos hc] at hd hr
      exact quietL_comment rest (hr (by simp)) hq l hl (fun b hb => hd b (List.mem_cons_of_mem _ hb))
    · rename_i hc
      rw [if_neg hc] at hd hr
      rw [if_neg hc, if_neg hc] at ha
      refine ⟨?_, quietL_line rest hq l hl hd ?_ hr⟩
      · intro hcd
        cases l with
        | nil => exact isCom_nl
        | cons x l =>
          show isCom x = false
          cases hx : isCom x
          · rfl
          · rw [comment_cons, if_pos hx, stripComment_cons, if_pos hx] at ha
            have := ha (by simp) c rfl
            rw [isDigit_spec, hcd] at this; cases this
      · intro hne b hb
        refine ha hne b ?_
        rw [List.getLast?_cons, hb]; rfl

theorem headCom_text {l : List Byte} {rest : List Byte} (h : ∀ b, l.head? = some b → Spec.isComment b = false) : headCom (l ++ nl :: rest) = false := by
  cases l with
  | nil => exact isCom_nl
  | cons c l =>
    show isCom c = false
    rw [← isCom_spec]; exact h c rfl

theorem quietL_plain : ∀ (l : List Byte), Spec.comment l = [] → quietL false l ∧ headCom l = false
  | [], _ => ⟨trivial, rfl⟩
  | c :: l, h => by
    rw [comment_cons] at h
    split at h
    · cases h
    · rename_i hc
      have ih := quietL_plain l h
      rw [quietL, if_neg hc]
      exact ⟨⟨fun _ => ih.2, ih.1⟩, by show isCom c = false; simpa using hc⟩

theorem quietL_text {tail : List Byte} : ∀ {body : List (List Byte)}, NoNl body → Spec.QuietComments body tail → quietL false (text body ++ tail)
  | [], _, h => (quietL_plain tail h.last).1
  | l :: body, hn, h => by
    have h' : Spec.QuietComments body tail :=
      ⟨fun x hx => h.nodigit x (List.mem_cons_of_mem _ hx), fun x hx => h.apart x (List.mem_cons_of_mem _ hx), fun i x y hx hy => h.single (i + 1) x y (by simpa using hx) (by simpa using hy), h.last⟩
    have ih := quietL_text (fun x hx => hn x (List.mem_cons_of_mem _ hx)) h'
    rw [text_cons, show l ++ nl :: text body ++ tail = l ++ nl :: (text body ++ tail) from by simp]
    refine quietL_line _ ih l (hn l (by simp)) (h.nodigit l (by simp)) (h.apart l (by simp)) ?_
    intro hc
    cases body with
    | nil => exact (quietL_plain tail h.last).2
    | cons l' body =>
      rw [text_cons, show l' ++ nl :: text body ++ tail = l' ++ nl :: (text body ++ tail) from by simp]
      exact headCom_text (h.single 0 l l' rfl rfl hc)

theorem blankComment_noNl {l : List Byte} (h : nl ∉ l) : nl ∉ Spec.blankComment l := by
  intro hm
  rcases List.mem_append.mp hm with hm | hm
  · exact h (List.takeWhile_subset _ hm)
  · obtain ⟨_, _, hx⟩ := List.mem_map.mp hm
    revert hx; decide

theorem digitRuns_strip_blanks (p : List Byte) : ∀ (k : List Byte), Spec.digitRuns (p ++ k.map (fun _ => (32 : Byte))) = Spec.digitRuns p := by
  intro k
  cases k with
  | nil => rw [List.map_nil, List.append_nil]
  | cons c k =>
    rw [List.map_cons, digitRuns_append _ _ _ (by decide)]
    have : Spec.digitRuns (k.map (fun _ => (32 : Byte))) = [] := by
      induction k with
      | nil => exact digitRuns_nil
      | cons c k ih => rw [List.map_cons, digitRuns_cons_nondigit _ _ (by decide), ih]
    rw [this, List.append_nil]

theorem digitRuns_blankComment (l : List Byte) : Spec.digitRuns (Spec.blankComment l) = Spec.digitRuns (Spec.stripComment l) :=
  digitRuns_strip_blanks _ _

theorem blankComment_nocom (l : List Byte) : ∀ b ∈ Spec.blankComment l, Spec.isComment b = false := by
  intro b hb
  rcases List.mem_append.mp hb with hb | hb
  · have := mem_takeWhile' hb
    simpa using this
  · obtain ⟨_, _, hx⟩ := List.mem_map.mp hb
    rw [← hx]; decide

theorem plain_nocom {l : List Byte} (h : Spec.comment l = []) : ∀ b ∈ l, Spec.isComment b = false := by
  intro b hb
  have h1 := strip_append_comment l
  rw [h, List.append_nil] at h1
  rw [← h1] at hb
  have := mem_takeWhile' hb
  simpa using this

end Pigo
