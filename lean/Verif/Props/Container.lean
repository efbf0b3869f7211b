import Verif.Spec.Container
import Verif.Props.Total
import Verif.Props.CrashGraph

/-!
# One file holding several objects

C106. Values, strings, blocks of memory and CSRs put one after the other into one `File` (`Model/Container`; specification in
`Spec/Container`).
-/

namespace Pigo.Box

variable {W : Type}

theorem total_cons (r : Rec W) (rs : List (Rec W)) : total (r :: rs) = r.size + total rs := by simp [total]

theorem total_append (a b : List (Rec W)) : total (a ++ b) = total a + total b := by simp [total]

theorem bytes_length {r : Rec W} (h : Spec.Fits r) : (Spec.bytes r).length = r.size := by
  cases r with
  | csr P c => rw [Spec.bytes, Rec.size, ← csrBytes_eq, csrBytes_length P.cw h.1]
  | num k v => rw [Spec.bytes, Rec.size, ← encLE_eq, encLE_length]
  | text s => rfl
  | raw bs => rfl

theorem bytes_total {rs : List (Rec W)} (h : ∀ r ∈ rs, Spec.Fits r) : (rs.flatMap Spec.bytes).length = total rs := by
  induction rs with
  | nil => rfl
  | cons r rs ih =>
    rw [List.flatMap_cons, List.length_append, total_cons, bytes_length (h r (List.mem_cons_self ..)),
      ih (fun q hq => h q (List.mem_cons_of_mem _ hq))]

/-! ## Writing -/

theorem put_all {T : Nat} (hT : 0 < T) {r : Rec W} (h : Spec.Fits r) {f : WFile} {size : Nat} {P : List Byte} (hf : Wrote f size P)
    (hs : P.length + r.size ≤ size) : (put T r f).All (fun f => Wrote f size (P ++ Spec.bytes r)) := by
  cases r with
  | csr Q c =>
    refine (saveCsrTo_all (P := P) hT Q.cw h.1 (by simpa using hf) hs).mono (fun f hf => ?_)
    rwa [Spec.bytes, ← csrBytes_eq]
  | num k v =>
    rw [Spec.bytes, ← encLE_eq]
    exact wBytes_all hf _ (by rw [encLE_length]; exact hs)
  | text s => exact wBytes_all hf _ hs
  | raw bs => exact parWrite_all hf hT bs rfl hs

theorem putAll_all {T : Nat} (hT : 0 < T) {rs : List (Rec W)} (h : ∀ r ∈ rs, Spec.Fits r) {size : Nat} : ∀ {f : WFile} {P : List Byte},
    Wrote f size P → P.length + total rs ≤ size → (putAll T rs f).All (fun f => Wrote f size (P ++ rs.flatMap Spec.bytes)) := by
  induction rs with
  | nil => intro f P hf _; exact R.All.pure (by simpa using hf)
  | cons r rs ih =>
    intro f P hf hs
    rw [total_cons] at hs
    have hr := h r (List.mem_cons_self ..)
    refine R.All.bind (put_all hT hr hf (by omega)) (fun f hf => ?_)
    rw [List.flatMap_cons, ← List.append_assoc]
    exact ih (fun q hq => h q (List.mem_cons_of_mem _ hq)) hf (by rw [List.length_append, bytes_length hr]; omega)

theorem build_prefix {T : Nat} (hT : 0 < T) {rs : List (Rec W)} (h : ∀ r ∈ rs, Spec.Fits r) {size : Nat} (hs : total rs ≤ size)
    (h0 : 0 < size) : (build T size rs).All (fun bs => bs.length = size ∧ rs.flatMap Spec.bytes <+: bs) := by
  unfold build
  refine R.All.bind (openW_all h0) (fun f hf => ?_)
  refine R.All.bind (putAll_all hT h hf (by simpa using hs)) (fun f hf => R.All.pure ⟨hf.size, ?_⟩)
  rw [List.nil_append] at hf
  exact List.prefix_iff_eq_take.mpr hf.pre.symm

/-- C106: a file with the sum of the sizes of the records is, byte for byte, the records one after the other, whatever the number of
threads and their interleaving. -/
theorem C106_layout (T : Nat) (hT : 0 < T) (rs : List (Rec W)) (h : ∀ r ∈ rs, Spec.Fits r) (h0 : 0 < total rs) :
    (build T (total rs) rs).All (fun bs => bs = rs.flatMap Spec.bytes) := by
  refine (build_prefix hT h (Nat.le_refl _) h0).mono (fun bs hb => ?_)
  exact (hb.2.eq_of_length (by rw [hb.1, bytes_total h])).symm

/-- C106: in a larger file they are its first bytes. -/
theorem C106_layout_room (T : Nat) (hT : 0 < T) (rs : List (Rec W)) (h : ∀ r ∈ rs, Spec.Fits r) (size : Nat) (h0 : 0 < size)
    (hs : total rs ≤ size) : (build T size rs).All (fun bs => bs.length = size ∧ rs.flatMap Spec.bytes <+: bs) :=
  build_prefix hT h hs h0

/-! ## Reading -/

theorem rest_of {bs pre a post : List Byte} {pad : Nat} (h : bs = pre ++ (a ++ post)) :
    Rest ⟨bs, pad⟩ pre.length (a ++ (post ++ List.replicate pad 0)) := by
  refine ⟨?_, ?_⟩
  · rw [Mapping.mem_length]; simp only [h, List.length_append]; omega
  · show (bs ++ List.replicate pad 0).drop _ = _
    rw [h, List.append_assoc, List.drop_left, List.append_assoc]

theorem hasAt_of {bs pre s post : List Byte} {pad : Nat} (h : bs = pre ++ (s ++ post)) (hp : post ≠ []) : HasAt ⟨bs, pad⟩ pre.length s := by
  refine ⟨?_, ?_⟩
  · show s <+: bs.drop _
    rw [h, List.drop_left]
    exact List.prefix_append _ _
  · show _ < bs.length
    have := List.length_pos_iff.mpr hp
    rw [h, List.length_append, List.length_append]
    omega

theorem get_at {T : Nat} (hT : 0 < T) {ft : FileType} (hft : ft = .auto ∨ ft = .csrBin) (fn : List Byte) {pad : Nat} {r : Rec W}
    (h : Spec.Fits r) {bs pre post : List Byte} (hb : bs = pre ++ (Spec.bytes r ++ post))
    (ht : ∀ s, r = .text s → pre.length + s.length < bs.length) :
    (get T ft ⟨bs, pad⟩ fn r.shape pre.length).All (fun q => q = (r, pre.length + r.size)) := by
  have hr := rest_of (pad := pad) hb
  have hl := bytes_length h
  cases r with
  | csr P c =>
    rw [Spec.bytes, ← csrBytes_eq] at hr hb
    obtain ⟨l, hl'⟩ := csrBytes_magic P.lb P.ob P.wk.wgt P.cw c
    have hm : HasAt ⟨bs, pad⟩ pre.length csrMagic := by
      refine hasAt_of (post := Pigo.Spec.le 1 P.lb ++ (l ++ post)) ?_ (le_ne_nil _ _)
      rw [hb, hl']
      simp only [List.append_assoc]
    refine R.All.same (readCsr_at { P with T := T } hT h.2.1 h.2.2 h.1 fn hr hm hft) (R.All.pure ?_)
    rw [Rec.size, ← csrBytes_length P.cw h.1]
  | num k v =>
    rw [Spec.bytes, ← encLE_eq] at hr
    refine R.All.step (rdLE_at hr (encLE_length ..)) (R.All.pure ?_)
    rw [decLE_encLE h]
    rfl
  | text s => exact R.All.step (rdStr_at hr (ht s rfl)) (R.All.pure rfl)
  | raw b =>
    refine R.All.bind R.All.any (fun junk _ => ?_)
    have hn : pre.length + b.length ≤ bs.length := by
      rw [hb, List.length_append, List.length_append]
      show _ ≤ _ + (b.length + _)
      omega
    refine R.All.bind (C44_parallel_read T hT ⟨bs, pad⟩ (alloc junk b.length) b.length pre.length hn (by rw [alloc_length]; exact Nat.le_refl _))
      (fun q hq => R.All.pure ?_)
    obtain ⟨h1, h2, h3, -⟩ := hq
    rw [alloc_length] at h2
    refine Prod.ext (congrArg Rec.raw ?_) h1
    refine List.ext_getElem? (fun i => ?_)
    by_cases hi : i < b.length
    · rw [h3 i hi]
      show bs[pre.length + i]? = b[i]?
      rw [hb, List.getElem?_append_right (by omega), Nat.add_sub_cancel_left, List.getElem?_append_left (by exact hi)]
      rfl
    · rw [List.getElem?_eq_none (by omega), List.getElem?_eq_none (by omega)]

theorem getAll_at {T : Nat} (hT : 0 < T) {ft : FileType} (hft : ft = .auto ∨ ft = .csrBin) (fn : List Byte) {pad : Nat} {bs : List Byte}
    {rs : List (Rec W)} : ∀ {pre post : List Byte}, (∀ r ∈ rs, Spec.Fits r) → bs = pre ++ (rs.flatMap Spec.bytes ++ post) →
    (∀ a s b, rs = a ++ .text s :: b → pre.length + total a + s.length < bs.length) →
    (getAll T ft ⟨bs, pad⟩ fn (rs.map Rec.shape) pre.length).All (fun q => q = (rs, pre.length + total rs)) := by
  induction rs with
  | nil => intro pre post _ _ _; exact R.All.pure (by simp [total])
  | cons r rs ih =>
    intro pre post h hb ht
    have hr := h r (List.mem_cons_self ..)
    have hb' : bs = pre ++ (Spec.bytes r ++ (rs.flatMap Spec.bytes ++ post)) := by
      rw [hb, List.flatMap_cons, List.append_assoc]
    rw [List.map_cons, getAll]
    refine R.All.same (get_at hT hft fn hr hb' ?_) ?_
    · intro s hs
      have := ht [] s rs (by rw [hs]; rfl)
      simpa [total] using this
    · have hlen : pre.length + r.size = (pre ++ Spec.bytes r).length := by rw [List.length_append, bytes_length hr]
      simp only [hlen]
      refine R.All.same (ih (pre := pre ++ Spec.bytes r) (post := post) (fun q hq => h q (List.mem_cons_of_mem _ hq)) ?_ ?_) (R.All.pure ?_)
      · rw [hb', List.append_assoc]
      · intro a s b e
        have := ht (r :: a) s b (by rw [e]; rfl)
        rw [total_cons] at this
        omega
      · rw [total_cons]
        refine Prod.ext rfl ?_
        show _ + _ = _
        omega

/-- C106: the records are read back, in order, as they were written, with any numbers of threads for writing and reading, the type of the
CSRs given or detected, and under any file name, provided that no string ends at the very end of the file. -/
theorem C106_sequence (T T' : Nat) (hT : 0 < T) (hT' : 0 < T') (ft : FileType) (hft : ft = .auto ∨ ft = .csrBin) (fn : List Byte) (pad : Nat)
    (rs : List (Rec W)) (h : ∀ r ∈ rs, Spec.Fits r) (size : Nat) (h0 : 0 < size) (hs : total rs ≤ size) (ht : Spec.TextInside size rs) :
    (build T size rs >>= fun bs => getAll T' ft ⟨bs, pad⟩ fn (rs.map Rec.shape) 0).All (fun q => q = (rs, total rs)) := by
  refine R.All.bind (build_prefix hT h hs h0) (fun bs hb => ?_)
  obtain ⟨post, hp⟩ := hb.2
  have := getAll_at hT' hft fn (pad := pad) (pre := []) (post := post) h (by rw [List.nil_append, hp]) (fun a s b e => by
    rw [hb.1, List.length_nil, Nat.zero_add]; exact ht a s b e)
  simpa using this

/-- C106: any record can be read on its own: after `seek` to the sum of the sizes of the records before it. -/
theorem C106_random_access (T T' : Nat) (hT : 0 < T) (hT' : 0 < T') (ft : FileType) (hft : ft = .auto ∨ ft = .csrBin) (fn : List Byte)
    (pad : Nat) (pre : List (Rec W)) (r : Rec W) (post : List (Rec W)) (h : ∀ q ∈ pre ++ r :: post, Spec.Fits q) (size : Nat)
    (hs : total (pre ++ r :: post) ≤ size) (h0 : total pre < size) (ht : Spec.TextInside size (pre ++ r :: post)) :
    (build T size (pre ++ r :: post) >>= fun bs => getAt T' ft ⟨bs, pad⟩ fn (total pre) r.shape).All
      (fun q => q = (r, total pre + r.size)) := by
  refine R.All.bind (build_prefix hT h hs (by omega)) (fun bs hb => ?_)
  obtain ⟨rest, hp⟩ := hb.2
  rw [List.flatMap_append, List.flatMap_cons] at hp
  have hl : (pre.flatMap Spec.bytes).length = total pre := bytes_total (fun q hq => h q (List.mem_append_left _ hq))
  refine R.All.step (a := total pre) (if_neg (by show ¬ _ ≥ bs.length; omega)) ?_
  rw [← hl]
  refine get_at hT' hft fn (h r (by simp)) (post := post.flatMap Spec.bytes ++ rest) (by rw [← hp]; simp only [List.append_assoc]) ?_
  intro s hs'
  rw [hl, hb.1]
  exact ht pre s post (by rw [hs'])

theorem get_any [Nonempty W] (T : Nat) (hT : 0 < T) (ft : FileType) (μ : Mapping) (fn : List Byte) (s : Shape W) (p : Nat) :
    (get T ft μ fn s p).Any := by
  cases s with
  | csr P => exact R.Any.bind (csr_any { P with T := T } hT μ fn p ft) (fun _ => ⟨_, rfl⟩)
  | num k => exact R.Any.bind ⟨_, rfl⟩ (fun _ => ⟨_, rfl⟩)
  | text s => exact R.Any.bind ⟨_, rfl⟩ (fun _ => ⟨_, rfl⟩)
  | raw n =>
    refine R.Any.bind ⟨.ok (fun _ => 0), (fun _ => 0), trivial, rfl⟩ (fun _ => R.Any.bind ?_ (fun _ => ⟨_, rfl⟩))
    exact R.Any.bind ⟨_, rfl⟩ (fun _ => R.Any.bind (R.Any.par ..) (fun _ => ⟨_, rfl⟩))

/-- C106: writing and reading always come to an end with some outcome, so that the statements above are about executions that exist. -/
theorem C106_total [Nonempty W] (T : Nat) (hT : 0 < T) (size : Nat) (rs : List (Rec W)) (ft : FileType) (μ : Mapping) (fn : List Byte)
    (ss : List (Shape W)) (p : Nat) : (build T size rs).Any ∧ (getAll T ft μ fn ss p).Any := by
  constructor
  · refine R.Any.bind ⟨_, rfl⟩ (fun f => R.Any.bind ?_ (fun _ => ⟨_, rfl⟩))
    induction rs generalizing f with
    | nil => exact ⟨_, rfl⟩
    | cons r rs ih =>
      refine R.Any.bind ?_ (fun f => ih f)
      cases r with
      | csr P c => exact saveCsrTo_any ..
      | num k v => exact ⟨_, rfl⟩
      | text s => exact ⟨_, rfl⟩
      | raw bs => exact parWrite_any ..
  · induction ss generalizing p with
    | nil => exact ⟨_, rfl⟩
    | cons s ss ih => exact R.Any.bind (get_any T hT ft μ fn s p) (fun _ => R.Any.bind (ih _) (fun _ => ⟨_, rfl⟩))

/-- C106: a string that is the last thing in the file cannot be read back, in sequence or after a `seek`: `Error` is thrown, because the
comparison needs one more byte. -/
theorem C106_string_at_end_violated [Nonempty W] (T T' : Nat) (hT : 0 < T) (hT' : 0 < T') (ft : FileType) (hft : ft = .auto ∨ ft = .csrBin)
    (fn : List Byte) (pad : Nat) (pre : List (Rec W)) (s : List Byte) (hs : s ≠ []) (h : ∀ q ∈ pre, Spec.Fits q)
    (ht : Spec.TextInside (total pre + s.length) pre) :
    (build T (total (pre ++ [.text s])) (pre ++ [.text s])).All (fun bs =>
      bs = pre.flatMap Spec.bytes ++ s ∧
      (getAll T' ft ⟨bs, pad⟩ fn ((pre ++ [Rec.text s]).map (Rec.shape (W := W))) 0).Throws ∧
      (getAt (W := W) T' ft ⟨bs, pad⟩ fn (total pre) (.text s)).Throws) := by
  have hpos := List.length_pos_iff.mpr hs
  have htot : total (pre ++ [Rec.text (W := W) s]) = total pre + s.length := by rw [total_append]; simp [total, Rec.size]
  have hf : ∀ q ∈ pre ++ [Rec.text s], Spec.Fits q := by
    intro q hq
    rcases List.mem_append.mp hq with hq | hq
    · exact h q hq
    · rw [List.mem_singleton] at hq
      subst hq
      trivial
  refine (C106_layout T hT _ hf (by omega)).mono (fun bs hb => ?_)
  have hb : bs = pre.flatMap Spec.bytes ++ s := by rw [hb]; simp [Spec.bytes]
  have hl : (pre.flatMap Spec.bytes).length = total pre := bytes_total h
  have hlen : bs.length = total pre + s.length := by rw [hb, List.length_append, hl]
  have hbad : (get (W := W) T' ft ⟨bs, pad⟩ fn (.text s) (total pre)).Throws := by
    refine R.Throws.bind_left (R.Throws.lift ?_)
    rw [rdStr, atStr_at]
    simp only [ok_bind]
    rw [show decide (s <+: bs.drop (total pre) ∧ total pre + s.length < bs.length) = false from decide_eq_false (by omega)]
    rfl
  have hseq : ∀ (rs : List (Rec W)) (a p : List Byte), (∀ q ∈ rs, Spec.Fits q) → bs = a ++ (rs.flatMap Spec.bytes ++ p) →
      (∀ x s' b, rs = x ++ .text s' :: b → a.length + total x + s'.length < bs.length) → a.length + total rs = total pre →
      (getAll T' ft ⟨bs, pad⟩ fn ((rs ++ [Rec.text s]).map Rec.shape) a.length).Throws := by
    intro rs
    induction rs with
    | nil =>
      intro a p _ _ _ e
      rw [show a.length = total pre by simpa [total] using e]
      exact R.Throws.bind_left hbad
    | cons r rs ih =>
      intro a p hr e ht' e'
      have hr1 := hr r (List.mem_cons_self ..)
      have e1 : bs = a ++ (Spec.bytes r ++ (rs.flatMap Spec.bytes ++ p)) := by rw [e, List.flatMap_cons, List.append_assoc]
      rw [List.cons_append, List.map_cons, getAll]
      have hg : (get T' ft ⟨bs, pad⟩ fn r.shape a.length).All (fun q => q = (r, a.length + r.size)) :=
        get_at hT' hft fn hr1 e1 (fun s' h' => by
          have := ht' [] s' rs (by rw [h']; rfl)
          simpa [total] using this)
      rw [total_cons] at e'
      have hlen : a.length + r.size = (a ++ Spec.bytes r).length := by rw [List.length_append, bytes_length hr1]
      have hnext := ih (a ++ Spec.bytes r) p (fun q hq => hr q (List.mem_cons_of_mem _ hq)) (by rw [e1, List.append_assoc])
        (fun x s' b e2 => by
          have := ht' (r :: x) s' b (by rw [e2]; rfl)
          rw [total_cons] at this
          omega) (by omega)
      rw [← hlen] at hnext
      exact R.Throws.after (get_any T' hT' ft _ fn _ _) hg (R.Throws.bind_left hnext)
  refine ⟨hb, ?_, ?_⟩
  · exact hseq pre [] s h (by rw [hb]; rfl) (fun x s' b e => by rw [hlen]; simpa using ht x s' b e) (by simp)
  · refine R.Throws.step (a := total pre) (if_neg (by show ¬ _ ≥ bs.length; omega)) hbad

/-! ## The hypotheses can be met -/

/-- A header string, a count, two graphs, a block of memory. -/
def exRecs : List (Rec Nat) := [.text (str "GRAPHS"), .num 8 2, .csr binParams binCsr, .csr binParams binCsr, .raw [1, 2, 3]]

theorem exRecs_fits : ∀ r ∈ exRecs, Spec.Fits r := by
  intro r hr
  simp only [exRecs, List.mem_cons, List.not_mem_nil, or_false] at hr
  rcases hr with rfl | rfl | rfl | rfl | rfl
  · trivial
  · show 2 < 256 ^ 8
    decide
  · exact ⟨binCsr_fits, by decide, by decide⟩
  · exact ⟨binCsr_fits, by decide, by decide⟩
  · trivial

theorem exRecs_inside : Spec.TextInside (total exRecs) exRecs := by
  intro pre s post e
  have hk : exRecs.length = 5 := rfl
  match pre, e with
  | [], e =>
    simp only [exRecs, List.nil_append, List.cons.injEq, Rec.text.injEq] at e
    rw [← e.1]
    decide
  | [a], e => simp [exRecs] at e
  | [a, b], e => simp [exRecs] at e
  | [a, b, c], e => simp [exRecs] at e
  | [a, b, c, d], e => simp [exRecs] at e
  | a :: b :: c :: d :: x :: l, e => simp [exRecs] at e

example := C106_layout 3 (by decide) exRecs exRecs_fits (by decide)
example := C106_sequence 3 5 (by decide) (by decide) .auto (.inl rfl) (str "store.bin") 7 exRecs exRecs_fits (total exRecs) (by decide)
  (Nat.le_refl _) exRecs_inside
/-- The second graph on its own. -/
example := C106_random_access 3 5 (by decide) (by decide) .csrBin (.inr rfl) (str "store.bin") 7
  [.text (str "GRAPHS"), .num 8 2, .csr binParams binCsr] (.csr binParams binCsr) [.raw [1, 2, 3]] exRecs_fits (total exRecs)
  (Nat.le_refl _) (by decide) exRecs_inside
/-- A string at the end. -/
example := C106_string_at_end_violated (W := Nat) 3 5 (by decide) (by decide) .auto (.inl rfl) (str "store.bin") 7
  [.num 8 2] (str "END") (by decide) (by simp [Spec.Fits]) (by
    intro pre s post e
    match pre, e with
    | [], e => simp at e
    | a :: l, e => simp at e)

end Pigo.Box
