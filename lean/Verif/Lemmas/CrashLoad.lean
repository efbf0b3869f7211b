import Verif.Lemmas.CrashStates
import Verif.Props.Binary2

/-! # Loading a torn file -/

namespace Pigo

open Spec (blank stage Between Torn)

variable {W α : Type}

/-- The `k` bytes from `p` on. -/
def fld (l : List Byte) (p k : Nat) : List Byte := (l.drop p).take k

theorem fld_length {l : List Byte} {p k : Nat} (h : p + k ≤ l.length) : (fld l p k).length = k := by
  rw [fld, List.length_take, List.length_drop]; omega

theorem rest_slice {μ : Mapping} {p k : Nat} (h : p + k ≤ μ.mem.length) : Rest μ p (fld μ.mem p k ++ μ.mem.drop (p + k)) := by
  refine ⟨by omega, ?_⟩
  rw [fld, ← List.drop_drop, List.take_append_drop]

theorem rdLE_slice {μ : Mapping} {p k : Nat} (h : p + k ≤ μ.mem.length) : rdLE μ k p = .ok (decLE (fld μ.mem p k), p + k) :=
  rdLE_at (rest_slice h) (fld_length h)

theorem readArr_slice {μ : Mapping} {p : Nat} {T : Nat} (hT : 0 < T) {k n : Nat} (h : p + k * n ≤ μ.mem.length) (dec : List Byte → α) :
    (readArr T μ k dec n (k * n) p).All (fun r => r = (decArr k dec n (fld μ.mem p (k * n)), p + k * n)) :=
  readArr_at (rest_slice h) hT (fld_length h) rfl dec

theorem readWeights_slice {μ : Mapping} {p : Nat} {T : Nat} (hT : 0 < T) {wgt : Bool} {cw : Codec W} {m : Nat}
    (h : p + weightSize wgt cw m ≤ μ.mem.length) :
    (readWeights T μ wgt cw m p).All (fun r => r = (if wgt then decArr cw.size cw.dec m (fld μ.mem p (cw.size * m)) else [], p + weightSize wgt cw m)) := by
  unfold readWeights
  cases wgt with
  | false => exact R.All.pure rfl
  | true =>
    simp only [weightSize, if_pos] at h ⊢
    split
    · exact readArr_slice hT h cw.dec
    · rename_i h0
      have hm : m = 0 := by
        rcases Nat.eq_zero_or_pos m with hm | hm
        · exact hm
        · exact absurd (Nat.mul_pos cw.pos hm) h0
      subst hm
      exact R.All.pure rfl

theorem mem_slice {μ : Mapping} {p k : Nat} (h : p + k ≤ μ.bytes.length) : fld μ.mem p k = fld μ.bytes p k := by
  rw [fld, fld, Mapping.mem, List.drop_append_of_le_length (by omega), List.take_append_of_le_length (by rw [List.length_drop]; omega)]

/-- Bytes of `s` that are those of `t` or zero. -/
def Zeroed (s t : List Byte) : Prop := s.length = t.length ∧ ∀ i : Nat, s[i]? = t[i]? ∨ s[i]? = some 0

theorem Zeroed.le : ∀ {s t : List Byte}, Zeroed s t → decLE s ≤ decLE t
  | [], [], _ => Nat.le_refl _
  | [], _ :: _, h => by have := h.1; simp at this
  | _ :: _, [], h => by have := h.1; simp at this
  | a :: s, b :: t, h => by
    have ih : decLE s ≤ decLE t := Zeroed.le ⟨by simpa using h.1, fun i => by simpa using h.2 (i + 1)⟩
    have h0 := h.2 0
    simp only [List.getElem?_cons_zero, Option.some.injEq] at h0
    rw [decLE, decLE]
    rcases h0 with rfl | rfl
    · omega
    · have : (0 : UInt8).toNat = 0 := rfl
      omega

theorem fld_get (l : List Byte) (p k i : Nat) : (fld l p k)[i]? = if i < k then l[p + i]? else none := by
  rw [fld, List.getElem?_take, List.getElem?_drop]

/-- A part of a torn file that does not contain the last byte. -/
theorem torn_slice {new s : List Byte} (h : Torn new s) {p k : Nat} (hp : p + k < new.length) : Zeroed (fld s p k) (fld new p k) := by
  have hn : 0 < new.length := by omega
  have hs : s.length = new.length := by rw [h.1, blank_length hn]
  refine ⟨by rw [fld_length (by omega), fld_length (by omega)], fun i => ?_⟩
  rw [fld_get, fld_get]
  by_cases hi : i < k
  · rw [if_pos hi, if_pos hi]
    rcases h.2 (p + i) with h | h
    · right
      rw [h, blank, List.getElem?_append_left (by simp; omega), List.getElem?_replicate, if_pos (by omega)]
    · exact .inl h
  · rw [if_neg hi, if_neg hi]; exact .inl rfl

theorem fld_part {l pre f post : List Byte} {p k : Nat} (h : l = pre ++ (f ++ post)) (hp : pre.length = p) (hk : f.length = k) : fld l p k = f := by
  subst h hp hk
  rw [fld, List.drop_left, List.take_append_of_le_length (Nat.le_refl _), List.take_length]

theorem decArr_length {k n : Nat} {dec : List Byte → α} {bs : List Byte} : (decArr k dec n bs).length = n := by simp [decArr]

/-- A number in a torn file is at most the one written. -/
theorem torn_field {new s : List Byte} (ht : Torn new s) (pad : Nat) {p k v : Nat} {pre post : List Byte} (hv : v < 256 ^ k)
    (he : new = pre ++ (encLE k v ++ post)) (hp : pre.length = p) (hlt : p + k < new.length) : decLE (fld (Mapping.mem ⟨s, pad⟩) p k) ≤ v := by
  have hs : s.length = new.length := by rw [ht.1, blank_length (by omega)]
  rw [mem_slice (μ := ⟨s, pad⟩) (by show p + k ≤ s.length; omega)]
  have := (torn_slice ht (p := p) (k := k) hlt).le
  rw [fld_part he hp (encLE_length ..), decLE_encLE hv] at this
  exact this

/-! ## COO -/

/-- What `read_bin_` of COO makes of the bytes `mem`. -/
def cooIn (lb ob : Nat) (wgt : Bool) (cw : Codec W) (mem : List Byte) : Coo W :=
  let m := decLE (fld mem (13 + 3 * lb) ob)
  let q := 13 + 3 * lb + ob
  { nrows := decLE (fld mem 13 lb), ncols := decLE (fld mem (13 + lb) lb), n := decLE (fld mem (13 + 2 * lb) lb), m := m,
    x := decArr lb decLE m (fld mem q (lb * m)), y := decArr lb decLE m (fld mem (q + lb * m) (lb * m)),
    w := if wgt then decArr cw.size cw.dec m (fld mem (q + lb * m + lb * m) (cw.size * m)) else [] }

theorem readBinCoo_slice {T : Nat} (hT : 0 < T) (lb ob : Byte) {wgt : Bool} (cw : Codec W) {μ : Mapping} {rest : List Byte}
    (hb : μ.bytes = cooMagic ++ lb :: ob :: rest)
    (hm : 13 + 3 * lb.toNat + ob.toNat + 2 * (lb.toNat * decLE (fld μ.mem (13 + 3 * lb.toNat) ob.toNat)) +
      weightSize wgt cw (decLE (fld μ.mem (13 + 3 * lb.toNat) ob.toNat)) ≤ μ.mem.length) :
    (readBinCoo T lb.toNat ob.toNat wgt cw μ 0).All (fun r => r.1 = cooIn lb.toNat ob.toNat wgt cw μ.mem) := by
  obtain ⟨e1, e2⟩ := hdr_bytes hb
  have hmg : HasAt μ 0 cooMagic := hasAt_zero (t := lb :: ob :: rest) hb (by simp)
  have l11 : cooMagic.length = 11 := by decide
  rw [l11] at e1 e2
  unfold readBinCoo
  refine R.All.step (rdStr_good hmg) ?_
  rw [l11]
  refine R.All.step (rdByte (by rw [Nat.zero_add]; exact e1)) (R.All.step (rdByte (by rw [Nat.zero_add]; exact e2)) ?_)
  refine R.All.step (a := ()) (if_neg (fun h => h rfl)) (R.All.step (a := ()) (if_neg (fun h => h rfl)) ?_)
  simp only [Nat.zero_add, Nat.reduceAdd]
  have g1 : 13 + 2 * lb.toNat = 13 + lb.toNat + lb.toNat := by omega
  have g2 : 13 + 3 * lb.toNat = 13 + lb.toNat + lb.toNat + lb.toNat := by omega
  unfold cooIn
  rw [g2] at hm ⊢
  rw [g1]
  refine R.All.step (rdLE_slice (by omega)) (R.All.step (rdLE_slice (by omega)) (R.All.step (rdLE_slice (by omega)) (R.All.step (rdLE_slice (by omega)) ?_)))
  dsimp only
  refine R.All.same (readArr_slice hT (by omega) decLE) ?_
  refine R.All.same (readArr_slice hT (by omega) decLE) ?_
  refine R.All.same (readWeights_slice hT (by omega)) ?_
  exact R.All.pure rfl

/-- The two bytes after the magic. -/
theorem torn_hdr {μ : Mapping} {s : List Byte} (hl : s.length + 2 < μ.bytes.length)
    (h : HasAt μ 0 s) : ∃ a b rest, μ.bytes = s ++ a :: b :: rest := by
  obtain ⟨⟨t, ht⟩, _⟩ := h
  rw [List.drop_zero] at ht
  have : μ.bytes.length = s.length + t.length := by rw [← ht, List.length_append]
  match t, ht with
  | [], _ => simp at this; omega
  | [_], _ => simp at this; omega
  | a :: b :: rest, ht => exact ⟨a, b, rest, ht.symm⟩

theorem torn_coo {T lb ob : Nat} (hT : 0 < T) {wgt : Bool} (cw : Codec W) {c : Coo W} (h : Spec.FitsCoo lb ob wgt cw c) (hlb : 0 < lb) (hm : 0 < c.m)
    {s : List Byte} (ht : Torn (Spec.cooFile lb ob wgt cw c) s) (pad : Nat) :
    (readBinCoo T lb ob wgt cw ⟨s, pad⟩ 0).Throws ∨
    (readBinCoo T lb ob wgt cw ⟨s, pad⟩ 0).All (fun r => r.1 = cooIn lb ob wgt cw (Mapping.mem ⟨s, pad⟩) ∧ r.1.m ≤ c.m ∧ r.1.nrows ≤ c.nrows ∧
      r.1.ncols ≤ c.ncols ∧ r.1.n ≤ c.n) := by
  have hlen := cooBytes_length cw h
  rw [cooBytes_eq] at hlen
  have l11 : cooMagic.length = 11 := by decide
  have hsz : cooSaveSize lb ob wgt cw c = 13 + 3 * lb + ob + 2 * (lb * c.m) + weightSize wgt cw c.m := by
    unfold cooSaveSize
    rw [l11, Nat.mul_comm lb 3, Nat.mul_comm _ 2]
    omega
  rw [hsz] at hlen
  have hlm : 0 < lb * c.m := Nat.mul_pos hlb hm
  have hs : s.length = 13 + 3 * lb + ob + 2 * (lb * c.m) + weightSize wgt cw c.m := by rw [ht.1, blank_length (by omega), hlen]
  by_cases hmg : HasAt ⟨s, pad⟩ 0 cooMagic
  · obtain ⟨a, b, rest, hb⟩ := torn_hdr (by show _ + 2 < s.length; omega) hmg
    by_cases hab : a.toNat ≠ lb ∨ b.toNat ≠ ob
    · exact .inl ((C42_sizes T lb ob wgt cw _ a b rest hab).1 hb)
    · simp only [ne_eq, not_or, Decidable.not_not] at hab
      obtain ⟨rfl, rfl⟩ := hab
      right
      have hf : Spec.cooFile a.toNat b.toNat wgt cw c = cooBytes a.toNat b.toNat wgt cw c := (cooBytes_eq ..).symm
      rw [hf] at ht hlen
      have e1 : decLE (fld (Mapping.mem ⟨s, pad⟩) 13 a.toNat) ≤ c.nrows :=
        torn_field ht pad (pre := cooMagic ++ encLE 1 a.toNat ++ encLE 1 b.toNat) h.nrows (by simp only [cooBytes, List.append_assoc]; rfl) (by simp [l11]) (by omega)
      have e2 : decLE (fld (Mapping.mem ⟨s, pad⟩) (13 + a.toNat) a.toNat) ≤ c.ncols :=
        torn_field ht pad (pre := cooMagic ++ encLE 1 a.toNat ++ encLE 1 b.toNat ++ encLE a.toNat c.nrows) h.ncols (by simp only [cooBytes, List.append_assoc]; rfl)
          (by simp [l11]; omega) (by omega)
      have e3 : decLE (fld (Mapping.mem ⟨s, pad⟩) (13 + 2 * a.toNat) a.toNat) ≤ c.n :=
        torn_field ht pad (pre := cooMagic ++ encLE 1 a.toNat ++ encLE 1 b.toNat ++ encLE a.toNat c.nrows ++ encLE a.toNat c.ncols) h.n
          (by simp only [cooBytes, List.append_assoc]; rfl) (by simp [l11]; omega) (by omega)
      have e4 : decLE (fld (Mapping.mem ⟨s, pad⟩) (13 + 3 * a.toNat) b.toNat) ≤ c.m :=
        torn_field ht pad (pre := cooMagic ++ encLE 1 a.toNat ++ encLE 1 b.toNat ++ encLE a.toNat c.nrows ++ encLE a.toNat c.ncols ++ encLE a.toNat c.n) h.m
          (by simp only [cooBytes, List.append_assoc]; rfl) (by simp [l11]; omega) (by omega)
      refine (readBinCoo_slice hT a b cw hb ?_).mono (fun r hr => ?_)
      · have h1 := Nat.mul_le_mul_left a.toNat e4
        have h2 : weightSize wgt cw (decLE (fld (Mapping.mem ⟨s, pad⟩) (13 + 3 * a.toNat) b.toNat)) ≤ weightSize wgt cw c.m := by
          unfold weightSize
          split
          · exact Nat.mul_le_mul_left _ e4
          · exact Nat.le_refl _
        have h3 : s.length ≤ (Mapping.mem ⟨s, pad⟩).length := by rw [Mapping.mem_length]; exact Nat.le_add_right _ _
        omega
      · rw [hr]
        exact ⟨rfl, e4, e1, e2, e3⟩
  · exact .inl (R.Throws.bind_left (R.Throws.lift (rdStr_bad hmg)))

/-! ## CSR -/

/-- What `read_bin_` of CSR makes of the bytes `mem`. -/
def csrIn (lb ob : Nat) (wgt : Bool) (cw : Codec W) (mem : List Byte) : Csr W :=
  let n := decLE (fld mem 13 lb)
  let m := decLE (fld mem (13 + lb) ob)
  let q := 13 + lb + ob + lb + lb
  { n := n, m := m, nrows := decLE (fld mem (13 + lb + ob) lb), ncols := decLE (fld mem (13 + lb + ob + lb) lb),
    offsets := decArr ob decLE (succL lb n) (fld mem q (ob * succL lb n)),
    endpoints := decArr lb decLE m (fld mem (q + ob * succL lb n) (lb * m)),
    weights := if wgt then decArr cw.size cw.dec m (fld mem (q + ob * succL lb n + lb * m) (cw.size * m)) else [] }

theorem readBinCsr_slice {T : Nat} (hT : 0 < T) (lb ob : Byte) {wgt : Bool} (cw : Codec W) {μ : Mapping} {rest : List Byte}
    (hb : μ.bytes = csrMagic ++ lb :: ob :: rest) {n m : Nat} (hn : n = decLE (fld μ.mem 13 lb.toNat)) (hm : m = decLE (fld μ.mem (13 + lb.toNat) ob.toNat))
    (hl : 13 + lb.toNat + ob.toNat + lb.toNat + lb.toNat + ob.toNat * succL lb.toNat n + lb.toNat * m + weightSize wgt cw m ≤ μ.mem.length) :
    (readBinCsr T lb.toNat ob.toNat wgt cw μ 0).All (fun r => r.1 = csrIn lb.toNat ob.toNat wgt cw μ.mem) := by
  obtain ⟨e1, e2⟩ := hdr_bytes hb
  have hmg : HasAt μ 0 csrMagic := hasAt_zero (t := lb :: ob :: rest) hb (by simp)
  have l11 : csrMagic.length = 11 := by decide
  rw [l11] at e1 e2
  unfold readBinCsr
  refine R.All.step (rdStr_good hmg) ?_
  rw [l11]
  refine R.All.step (rdByte (by rw [Nat.zero_add]; exact e1)) (R.All.step (rdByte (by rw [Nat.zero_add]; exact e2)) ?_)
  refine R.All.step (a := ()) (if_neg (fun h => h rfl)) (R.All.step (a := ()) (if_neg (fun h => h rfl)) ?_)
  simp only [Nat.zero_add, Nat.reduceAdd]
  subst hn hm
  refine R.All.step (rdLE_slice (by omega)) (R.All.step (rdLE_slice (by omega)) (R.All.step (rdLE_slice (by omega)) (R.All.step (rdLE_slice (by omega)) ?_)))
  dsimp only
  refine R.All.same (readArr_slice hT (by omega) decLE) ?_
  refine R.All.same (readArr_slice hT (by omega) decLE) ?_
  refine R.All.same (readWeights_slice hT (by omega)) ?_
  exact R.All.pure rfl

theorem weightSize_le {wgt : Bool} {cw : Codec W} {m m' : Nat} (h : m' ≤ m) : weightSize wgt cw m' ≤ weightSize wgt cw m := by
  unfold weightSize
  split
  · exact Nat.mul_le_mul_left _ h
  · exact Nat.le_refl _

theorem torn_csr {T lb ob : Nat} (hT : 0 < T) {wgt : Bool} (cw : Codec W) {c : Csr W} (h : Spec.FitsCsr lb ob wgt cw c) (hob : 0 < ob)
    {s : List Byte} (ht : Torn (Spec.csrFile lb ob wgt cw c) s) (pad : Nat) :
    (readBinCsr T lb ob wgt cw ⟨s, pad⟩ 0).Throws ∨
    (readBinCsr T lb ob wgt cw ⟨s, pad⟩ 0).All (fun r => r.1 = csrIn lb ob wgt cw (Mapping.mem ⟨s, pad⟩) ∧ r.1.m ≤ c.m ∧ r.1.nrows ≤ c.nrows ∧
      r.1.ncols ≤ c.ncols ∧ r.1.n ≤ c.n ∧ r.1.offsets.length = r.1.n + 1) := by
  have hlen := csrBytes_length cw h
  have l11 : csrMagic.length = 11 := by decide
  have hsz : csrSaveSize lb ob wgt cw c = 13 + lb + ob + lb + lb + ob * (c.n + 1) + lb * c.m + weightSize wgt cw c.m := by
    unfold csrSaveSize
    rw [l11, succL_eq h.room]
    omega
  rw [hsz] at hlen
  rw [← csrBytes_eq] at ht
  have hlm : 0 < ob * (c.n + 1) := Nat.mul_pos hob (by omega)
  have hs : s.length = 13 + lb + ob + lb + lb + ob * (c.n + 1) + lb * c.m + weightSize wgt cw c.m := by rw [ht.1, blank_length (by omega), hlen]
  by_cases hmg : HasAt ⟨s, pad⟩ 0 csrMagic
  · obtain ⟨a, b, rest, hb⟩ := torn_hdr (by show _ + 2 < s.length; omega) hmg
    by_cases hab : a.toNat ≠ lb ∨ b.toNat ≠ ob
    · exact .inl ((C42_sizes T lb ob wgt cw _ a b rest hab).2.1 hb)
    · simp only [ne_eq, not_or, Decidable.not_not] at hab
      obtain ⟨rfl, rfl⟩ := hab
      right
      have e1 : decLE (fld (Mapping.mem ⟨s, pad⟩) 13 a.toNat) ≤ c.n :=
        torn_field ht pad (pre := csrMagic ++ encLE 1 a.toNat ++ encLE 1 b.toNat) h.n (by simp only [csrBytes, List.append_assoc]; rfl) (by simp [l11]) (by omega)
      have e2 : decLE (fld (Mapping.mem ⟨s, pad⟩) (13 + a.toNat) b.toNat) ≤ c.m :=
        torn_field ht pad (pre := csrMagic ++ encLE 1 a.toNat ++ encLE 1 b.toNat ++ encLE a.toNat c.n) h.m (by simp only [csrBytes, List.append_assoc]; rfl)
          (by simp [l11]; omega) (by omega)
      have e3 : decLE (fld (Mapping.mem ⟨s, pad⟩) (13 + a.toNat + b.toNat) a.toNat) ≤ c.nrows :=
        torn_field ht pad (pre := csrMagic ++ encLE 1 a.toNat ++ encLE 1 b.toNat ++ encLE a.toNat c.n ++ encLE b.toNat c.m) h.nrows
          (by simp only [csrBytes, List.append_assoc]; rfl) (by simp [l11]; omega) (by omega)
      have e4 : decLE (fld (Mapping.mem ⟨s, pad⟩) (13 + a.toNat + b.toNat + a.toNat) a.toNat) ≤ c.ncols :=
        torn_field ht pad (pre := csrMagic ++ encLE 1 a.toNat ++ encLE 1 b.toNat ++ encLE a.toNat c.n ++ encLE b.toNat c.m ++ encLE a.toNat c.nrows) h.ncols
          (by simp only [csrBytes, List.append_assoc]; rfl) (by simp [l11]; omega) (by omega)
      have hsucc : succL a.toNat (decLE (fld (Mapping.mem ⟨s, pad⟩) 13 a.toNat)) = decLE (fld (Mapping.mem ⟨s, pad⟩) 13 a.toNat) + 1 :=
        succL_eq (h.room.imp id (fun h => by omega))
      refine (readBinCsr_slice hT a b cw hb rfl rfl ?_).mono (fun r hr => ?_)
      · have h1 := Nat.mul_le_mul_left a.toNat e2
        have h2 := weightSize_le (wgt := wgt) (cw := cw) e2
        have h3 : s.length ≤ (Mapping.mem ⟨s, pad⟩).length := by rw [Mapping.mem_length]; exact Nat.le_add_right _ _
        have h4 := Nat.mul_le_mul_left b.toNat (Nat.succ_le_succ e1)
        rw [hsucc]
        simp only [Nat.succ_eq_add_one] at h4
        omega
      · rw [hr]
        exact ⟨rfl, e2, e3, e4, e1, by rw [csrIn, decArr_length, hsucc]⟩
  · exact .inl (R.Throws.bind_left (R.Throws.lift (rdStr_bad hmg)))

/-! ## Tensor -/

theorem readArr_slice' {μ : Mapping} {p : Nat} {T : Nat} (hT : 0 < T) {k n b : Nat} (hb : b = k * n) (h : p + b ≤ μ.mem.length) (dec : List Byte → α) :
    (readArr T μ k dec n b p).All (fun r => r = (decArr k dec n (fld μ.mem p b), p + b)) := by
  subst hb; exact readArr_slice hT h dec

/-- What `read_bin_` of Tensor makes of the bytes `mem`. -/
def tensorIn (lb ob : Nat) (wgt : Bool) (cw : Codec W) (mem : List Byte) : Tensor W :=
  let q := 15 + if wgt then 1 else 0
  let order := decLE (fld mem q ob)
  let m := decLE (fld mem (q + ob) ob)
  { order := order, m := m, c := decArr lb decLE (inOrd (8 * ob) (order * m)) (fld mem (q + ob + ob) (lb * order * m)),
    w := if wgt then decArr cw.size cw.dec m (fld mem (q + ob + ob + lb * order * m) (cw.size * m)) else [] }

theorem torn_tensor {T lb ob : Nat} (hT : 0 < T) {wgt : Bool} (cw : Codec W) {t : Tensor W} (h : Spec.FitsTensor lb ob wgt cw t) (hlb : 0 < lb)
    (ho : 0 < t.order) (hm : 0 < t.m) {s : List Byte} (ht : Torn (Spec.tensorFile lb ob wgt cw t) s) (pad : Nat) :
    (readBinTensor T lb ob wgt cw ⟨s, pad⟩ 0).Throws ∨
    (readBinTensor T lb ob wgt cw ⟨s, pad⟩ 0).All (fun r => r = tensorIn lb ob wgt cw (Mapping.mem ⟨s, pad⟩) ∧ r.m ≤ t.m ∧ r.order ≤ t.order ∧
      r.c.length = r.order * r.m) := by
  have hlen := tensorBytes_length cw h
  have l13 : tensorMagic.length = 13 := by decide
  have hsz : tensorSaveSize lb ob wgt cw t = 15 + (if wgt then 1 else 0) + ob + ob + lb * (t.order * t.m) + weightSize wgt cw t.m := by
    unfold tensorSaveSize
    rw [l13, Nat.mul_assoc lb, Nat.mul_comm t.m]
    omega
  rw [hsz] at hlen
  rw [← tensorBytes_eq] at ht
  have hlm : 0 < lb * (t.order * t.m) := Nat.mul_pos hlb (Nat.mul_pos ho hm)
  have hs : s.length = 15 + (if wgt then 1 else 0) + ob + ob + lb * (t.order * t.m) + weightSize wgt cw t.m := by rw [ht.1, blank_length (by omega), hlen]
  by_cases hmg : HasAt ⟨s, pad⟩ 0 tensorMagic
  · obtain ⟨a, b, rest, hb⟩ := torn_hdr (by show _ + 2 < s.length; omega) hmg
    by_cases hab : a.toNat ≠ lb ∨ b.toNat ≠ ob
    · exact .inl ((C42_sizes T lb ob wgt cw _ a b rest hab).2.2 hb)
    · simp only [ne_eq, not_or, Decidable.not_not] at hab
      obtain ⟨rfl, rfl⟩ := hab
      have hw : (∃ w rest', wgt = true ∧ rest = w :: rest' ∧ w.toNat ≠ cw.size) ∨
          (if wgt then (rdLE ⟨s, pad⟩ 1 15 >>= fun (ws, p) => sizeCheck ws cw.size >>= fun _ => .ok p) else .ok 15) = .ok (15 + if wgt then 1 else 0) := by
        cases wgt with
        | false => exact .inr rfl
        | true =>
          simp only [if_pos] at hs
          have hb' : s.length = 15 + rest.length := by
            have := congrArg List.length (show s = _ from hb)
            rw [List.length_append, l13, List.length_cons, List.length_cons] at this
            omega
          cases rest with
          | nil => simp at hb'; omega
          | cons w rest' =>
            by_cases hws : w.toNat = cw.size
            · right
              have e : (Mapping.mk s pad).bytes[15]? = some w := by
                rw [hb, List.getElem?_append_right (by rw [l13]; omega), l13]; rfl
              rw [if_pos rfl, rdByte e, ok_bind, hws]
              simp [sizeCheck]
            · exact .inl ⟨w, rest', rfl, rfl, hws⟩
      rcases hw with ⟨w, rest', rfl, rfl, hne⟩ | hw
      · exact .inl (C42_weight_size T a.toNat b.toNat cw _ a b w rest' hb hne)
      right
      have e1 : decLE (fld (Mapping.mem ⟨s, pad⟩) (15 + if wgt then 1 else 0) b.toNat) ≤ t.order :=
        torn_field ht pad (pre := tensorMagic ++ encLE 1 a.toNat ++ encLE 1 b.toNat ++ (if wgt then encLE 1 cw.size else [])) h.order
          (by simp only [tensorBytes, List.append_assoc]; rfl) (by simp only [List.length_append, wsize_length, encLE_length]; omega) (by omega)
      have e2 : decLE (fld (Mapping.mem ⟨s, pad⟩) (15 + (if wgt then 1 else 0) + b.toNat) b.toNat) ≤ t.m :=
        torn_field ht pad (pre := tensorMagic ++ encLE 1 a.toNat ++ encLE 1 b.toNat ++ (if wgt then encLE 1 cw.size else []) ++ encLE b.toNat t.order) h.m
          (by simp only [tensorBytes, List.append_assoc]; rfl) (by simp only [List.length_append, wsize_length, encLE_length]; omega) (by omega)
      have hmod : inOrd (8 * b.toNat) (decLE (fld (Mapping.mem ⟨s, pad⟩) (15 + if wgt then 1 else 0) b.toNat) *
          decLE (fld (Mapping.mem ⟨s, pad⟩) (15 + (if wgt then 1 else 0) + b.toNat) b.toNat)) =
          decLE (fld (Mapping.mem ⟨s, pad⟩) (15 + if wgt then 1 else 0) b.toNat) *
          decLE (fld (Mapping.mem ⟨s, pad⟩) (15 + (if wgt then 1 else 0) + b.toNat) b.toNat) :=
        inOrd_small (h.all.imp (fun h => ⟨h.1, Nat.lt_of_le_of_lt (Nat.mul_le_mul e1 e2) h.2⟩) (Nat.lt_of_le_of_lt (Nat.mul_le_mul e1 e2)))
      have h1 := Nat.mul_le_mul_left a.toNat (Nat.mul_le_mul e1 e2)
      have h2 := weightSize_le (wgt := wgt) (cw := cw) e2
      have h3 : s.length ≤ (Mapping.mem ⟨s, pad⟩).length := by rw [Mapping.mem_length]; exact Nat.le_add_right _ _
      obtain ⟨f1, f2⟩ := hdr_bytes hb
      rw [l13] at f1 f2
      refine (show (readBinTensor T a.toNat b.toNat wgt cw ⟨s, pad⟩ 0).All (fun r => r = tensorIn a.toNat b.toNat wgt cw (Mapping.mem ⟨s, pad⟩)) from ?_).mono
        (fun r hr => ?_)
      · unfold readBinTensor
        refine R.All.step (rdStr_good hmg) ?_
        rw [l13]
        refine R.All.step (rdByte (by rw [Nat.zero_add]; exact f1)) (R.All.step (rdByte (by rw [Nat.zero_add]; exact f2)) ?_)
        refine R.All.step (a := ()) (if_neg (fun h => h rfl)) (R.All.step (a := ()) (if_neg (fun h => h rfl)) ?_)
        simp only [Nat.zero_add, Nat.reduceAdd]
        refine R.All.step hw ?_
        refine R.All.step (rdLE_slice (by omega)) (R.All.step (rdLE_slice (by omega)) ?_)
        dsimp only
        simp only [tensorIn]
        generalize decLE (fld (Mapping.mem ⟨s, pad⟩) (15 + if wgt then 1 else 0) b.toNat) = o at *
        generalize decLE (fld (Mapping.mem ⟨s, pad⟩) (15 + (if wgt then 1 else 0) + b.toNat) b.toNat) = m at *
        rw [hmod]
        rw [← Nat.mul_assoc] at h1
        refine R.All.same (readArr_slice' hT (by rw [Nat.mul_assoc]) (by omega) decLE) ?_
        refine R.All.same (readWeights_slice hT (by omega)) ?_
        exact R.All.pure rfl
      · rw [hr]
        exact ⟨rfl, e2, e1, by rw [tensorIn, decArr_length, hmod]⟩
  · exact .inl (R.Throws.bind_left (R.Throws.lift (rdStr_bad hmg)))

end Pigo
