import Verif.Props.CutGraph
import Verif.Props.Crash

/-!
# C89 for DiGraph files: what an interrupted save leaves can be loaded as

The header fields are written one after the other, so that an unfinished file is cut in a header, or in the arrays of one of the two graphs.
-/

namespace Pigo

open Spec

variable {W : Type}

/-! ## The contents, more precisely -/

/-- The file of `n` bytes of which the first `j` bytes of `F` are written. -/
def cutFile (n : Nat) (F : List Byte) (j : Nat) : List Byte := F.take j ++ (blank n).drop j

/-- The beginning `H` is written, nothing from `e` on is. -/
structure HeadOnly (n : Nat) (H : List Byte) (e : Nat) (s : List Byte) : Prop where
  len : s.length = n
  head : H <+: s
  tail : s.drop e = (blank n).drop e

theorem stage_cut {n : Nat} {F : List Byte} {done : List (List Byte)} (h : done.flatten <+: F) : stage n done = cutFile n F done.flatten.length := by
  obtain ⟨t, rfl⟩ := h
  rw [stage, cutFile, List.take_left]

theorem prefix_take {α : Type} {a b F : List α} (h : a ++ b <+: F) (j : Nat) : a ++ b.take j <+: F :=
  ((List.prefix_append_right_inj a).mpr (List.take_prefix j b)).trans h

theorem wBytesO_cut {f : WFile} {n : Nat} {done : List (List Byte)} (h : Done f n done) {bs F : List Byte} (hF : done.flatten ++ bs <+: F) (hn : F.length ≤ n)
    {s : List Byte} (hs : (wBytesO bs f).seen s) : ∃ j, done.flatten.length ≤ j ∧ j ≤ done.flatten.length + bs.length ∧ s = cutFile n F j := by
  obtain ⟨k, hk⟩ := hs
  have hl : f.bytes.length = n := by rw [h.bytes, stage_length h.pos h.room]
  have hle := hF.length_le
  rw [List.length_append] at hle
  have hlt : (bs.take k).length ≤ bs.length := by rw [List.length_take]; omega
  rw [blockActs_take, run_block (List.Perm.refl _) f.bytes (by rw [h.fp, hl]; omega), h.fp, h.bytes, ← stage_snoc] at hk
  cases hk
  have hp : (done ++ [bs.take k]).flatten <+: F := by
    rw [List.flatten_append, List.flatten_singleton]; exact prefix_take hF k
  refine ⟨(done ++ [bs.take k]).flatten.length, ?_, ?_, stage_cut hp⟩ <;>
  · rw [List.flatten_append, List.flatten_singleton, List.length_append]; omega

theorem between_within {n e : Nat} {H v : List Byte} {done : List (List Byte)} (hn : 0 < n) (hH : H <+: done.flatten) (he : done.flatten.length + v.length ≤ e)
    (hen : e ≤ n) {s : List Byte} (hs : Between (stage n done) (stage n (done ++ [v])) s) : HeadOnly n H e s := by
  have hl : s.length = n := by rw [hs.1, stage_length hn (by omega)]
  have hHl := hH.length_le
  refine ⟨hl, ?_, ?_⟩
  · rw [List.prefix_iff_eq_take]
    apply List.ext_getElem?
    intro i
    by_cases hi : i < H.length
    · obtain ⟨t, ht⟩ := hH
      have hd : done.flatten[i]? = H[i]? := by rw [← ht, List.getElem?_append_left hi]
      have hi' : i < done.flatten.length := by omega
      rw [List.getElem?_take, if_pos hi]
      rcases hs.2 i with h | h <;> rw [h]
      · rw [stage, List.getElem?_append_left hi', hd]
      · rw [stage, List.flatten_append, List.append_assoc, List.getElem?_append_left hi', hd]
    · rw [List.getElem?_take, if_neg hi, List.getElem?_eq_none (by omega)]
  · apply List.ext_getElem?
    intro i
    rw [List.getElem?_drop, List.getElem?_drop]
    have hb : ∀ d : List (List Byte), d.flatten.length ≤ e → (stage n d)[e + i]? = (blank n)[e + i]? := by
      intro d hd
      rw [stage, List.getElem?_append_right (by omega), List.getElem?_drop]
      congr 1; omega
    rcases hs.2 (e + i) with h | h <;> rw [h]
    · exact hb _ (by omega)
    · exact hb _ (by rw [List.flatten_append, List.flatten_singleton, List.length_append]; exact he)

/-- What is in a file of `n` bytes while a CSR is written after the bytes `pre`: it is cut in the header, or the header is there and nothing behind the arrays. -/
def CsrMid (n : Nat) (pre : List Byte) (lb ob : Nat) (wgt : Bool) (cw : Codec W) (c : Csr W) (s : List Byte) : Prop :=
  (∃ j, j ≤ 13 + 3 * lb + ob ∧ s = cutFile n (pre ++ csrBytes lb ob wgt cw c) (pre.length + j)) ∨
  HeadOnly n (pre ++ (csrBytes lb ob wgt cw c).take (13 + 3 * lb + ob)) (pre.length + csrSaveSize lb ob wgt cw c) s

theorem saveCsrToO_mid {T lb ob : Nat} (hT : 0 < T) {wgt : Bool} (cw : Codec W) {c : Csr W} (h : FitsCsr lb ob wgt cw c)
    {f : WFile} {n : Nat} {done : List (List Byte)} (hf : Done f n done) (hs' : done.flatten.length + csrSaveSize lb ob wgt cw c ≤ n) {pre : List Byte}
    (hpre : done.flatten = pre) :
    (saveCsrToO T lb ob wgt cw c f).Seg (fun f => Done f n (done ++ csrPartsM lb ob wgt cw c)) (CsrMid n pre lb ob wgt cw c) := by
  refine ⟨(saveCsrToO_seg hT cw h hf hs').1, ?_⟩
  have hl := csrBytes_length cw h
  have hl' := hl
  have l11 : csrMagic.length = 11 := by decide
  have hsucc := succL_eq h.room
  have hfl : (csrPartsM lb ob wgt cw c).flatten = csrBytes lb ob wgt cw c := by
    rw [csrPartsM_eq, csrParts_flatten, csrBytes_eq]
  have hF : ∀ k, done.flatten ++ ((csrPartsM lb ob wgt cw c).take k).flatten <+: pre ++ csrBytes lb ob wgt cw c := by
    intro k
    rw [hpre, ← hfl, List.prefix_append_right_inj]
    refine ⟨((csrPartsM lb ob wgt cw c).drop k).flatten, ?_⟩
    rw [← List.flatten_append, List.take_append_drop]
  have hn : (pre ++ csrBytes lb ob wgt cw c).length ≤ n := by rw [List.length_append, hl, ← hpre]; exact hs'
  have hhead : (csrBytes lb ob wgt cw c).take (13 + 3 * lb + ob) = ((csrPartsM lb ob wgt cw c).take 7).flatten := by
    rw [← hfl]
    have : (csrPartsM lb ob wgt cw c).flatten = ((csrPartsM lb ob wgt cw c).take 7).flatten ++ ((csrPartsM lb ob wgt cw c).drop 7).flatten := by
      rw [← List.flatten_append, List.take_append_drop]
    rw [this]
    apply List.take_left'
    simp [csrPartsM, l11]; omega
  have hser : ∀ k, ∀ {f : WFile} {d : List (List Byte)} {bs : List Byte}, Done f n d → d = done ++ (csrPartsM lb ob wgt cw c).take k →
      d ++ [bs] = done ++ (csrPartsM lb ob wgt cw c).take (k + 1) → d.flatten.length + bs.length ≤ pre.length + (13 + 3 * lb + ob) →
      (wBytesO bs f).Seg (fun f => Done f n (d ++ [bs])) (CsrMid n pre lb ob wgt cw c) := by
    intro k f d bs hd h1 h2 h3
    have hp : d.flatten ++ bs <+: pre ++ csrBytes lb ob wgt cw c := by
      have := hF (k + 1)
      rw [← List.flatten_append, ← h2, List.flatten_append, List.flatten_singleton] at this
      exact this
    refine ⟨(wBytesO_seg hd bs ?_).1, fun s hs => ?_⟩
    · have := hp.length_le
      rw [List.length_append] at this; omega
    · obtain ⟨j, hj', hj, rfl⟩ := wBytesO_cut hd hp hn hs
      have : pre.length ≤ d.flatten.length := by
        rw [h1, List.flatten_append, List.length_append, hpre]; omega
      exact .inl ⟨j - pre.length, by omega, by congr 1; omega⟩
  have hpar : ∀ k, 7 ≤ k → ∀ {f : WFile} {d : List (List Byte)} {v : List Byte} {p : Obs WFile}, Done f n d → d = done ++ (csrPartsM lb ob wgt cw c).take k →
      d ++ [v] = done ++ (csrPartsM lb ob wgt cw c).take (k + 1) → p.Seg (fun f => Done f n (d ++ [v])) (Between (stage n d) (stage n (d ++ [v]))) →
      p.Seg (fun f => Done f n (d ++ [v])) (CsrMid n pre lb ob wgt cw c) := by
    intro k hk f d v p hd h1 h2 hp
    refine hp.mono fun s hs => .inr (between_within hd.pos ?_ ?_ (by rw [← hpre]; exact hs') hs)
    · rw [hhead, h1, List.flatten_append, hpre, List.prefix_append_right_inj]
      refine ⟨(((csrPartsM lb ob wgt cw c).take k).drop 7).flatten, ?_⟩
      rw [← List.flatten_append]
      congr 1
      rw [show (csrPartsM lb ob wgt cw c).take 7 = ((csrPartsM lb ob wgt cw c).take k).take 7 by rw [List.take_take, Nat.min_eq_left hk], List.take_append_drop]
    · have := (hF (k + 1)).length_le
      rw [← List.flatten_append, ← h2, List.flatten_append, List.flatten_singleton, List.length_append, List.length_append, hl'] at this
      exact this
  simp only [csrBytes, List.length_append, encLE_length, rawLE_length, h.offsets.1, h.endpoints.1, weights_length cw h.weights.1] at hl
  have key : (saveCsrToO T lb ob wgt cw c f).Seg (fun _ => True) (CsrMid n pre lb ob wgt cw c) := by
    unfold saveCsrToO
    refine Obs.Seg.bind (hser 0 hf (by simp) (by simp [csrPartsM]) (by rw [hpre]; omega)) (fun f hf => ?_)
    refine Obs.Seg.bind (hser 1 hf (by simp [csrPartsM]) (by simp [csrPartsM]) (by simp only [List.flatten_append, List.flatten_singleton, List.length_append, encLE_length, hpre]; omega)) (fun f hf => ?_)
    refine Obs.Seg.bind (hser 2 hf (by simp [csrPartsM]) (by simp [csrPartsM]) (by simp only [List.flatten_append, List.flatten_singleton, List.length_append, encLE_length, hpre]; omega)) (fun f hf => ?_)
    refine Obs.Seg.bind (hser 3 hf (by simp [csrPartsM]) (by simp [csrPartsM]) (by simp only [List.flatten_append, List.flatten_singleton, List.length_append, encLE_length, hpre]; omega)) (fun f hf => ?_)
    refine Obs.Seg.bind (hser 4 hf (by simp [csrPartsM]) (by simp [csrPartsM]) (by simp only [List.flatten_append, List.flatten_singleton, List.length_append, encLE_length, hpre]; omega)) (fun f hf => ?_)
    refine Obs.Seg.bind (hser 5 hf (by simp [csrPartsM]) (by simp [csrPartsM]) (by simp only [List.flatten_append, List.flatten_singleton, List.length_append, encLE_length, hpre]; omega)) (fun f hf => ?_)
    refine Obs.Seg.bind (hser 6 hf (by simp [csrPartsM]) (by simp [csrPartsM]) (by simp only [List.flatten_append, List.flatten_singleton, List.length_append, encLE_length, hpre]; omega)) (fun f hf => ?_)
    refine Obs.Seg.bind (hpar 7 (by omega) (f := f) hf (by simp [csrPartsM]) (by simp [csrPartsM]) (parWriteO_seg hf hT _ (by rw [rawLE_length, h.offsets.1, hsucc]) (by rw [hsucc]; simp only [List.flatten_append, List.flatten_singleton, List.length_append, encLE_length]; omega))) (fun f hf => ?_)
    refine Obs.Seg.bind (hpar 8 (by omega) (f := f) hf (by simp [csrPartsM]) (by simp [csrPartsM]) (parWriteO_seg hf hT _ (by rw [rawLE_length, h.endpoints.1]) (by simp only [List.flatten_append, List.flatten_singleton, List.length_append, encLE_length, rawLE_length, h.offsets.1]; omega))) (fun f hf => ?_)
    have := hpar 9 (by omega) (f := f) hf (by simp [csrPartsM]) (by simp [csrPartsM]) (saveWeightsO_seg hf hT cw h.weights.1 (by simp only [List.flatten_append, List.flatten_singleton, List.length_append, encLE_length, rawLE_length, h.offsets.1, h.endpoints.1]; omega))
    exact ⟨this.1.mono fun _ _ => trivial, this.2⟩
  exact key.2

/-- What is in the file while a DiGraph is saved. -/
theorem saveDiGraphO_mid {old : List Byte} {T lb ob : Nat} (hT : 0 < T) {wgt : Bool} (cw : Codec W) {g : DiGraph W} (hi : FitsCsr lb ob wgt cw g.inG)
    (ho : FitsCsr lb ob wgt cw g.outG) {n : Nat} (hn : n = digraphMagic.length + csrSaveSize lb ob wgt cw g.inG + csrSaveSize lb ob wgt cw g.outG) {s : List Byte}
    (hs : (saveDiGraphO old T lb ob wgt cw g).seen s) :
    s = old ∨ s = [] ∨ (∃ j, j ≤ 15 ∧ s = cutFile n digraphMagic j) ∨ CsrMid n digraphMagic lb ob wgt cw g.inG s ∨
    CsrMid n (digraphMagic ++ csrBytes lb ob wgt cw g.inG) lb ob wgt cw g.outG s := by
  have hni := csrPartsM_flatten cw hi
  have hfl : (csrPartsM lb ob wgt cw g.inG).flatten = csrBytes lb ob wgt cw g.inG := by
    rw [csrPartsM_eq, csrParts_flatten, csrBytes_eq]
  have hd : digraphMagic.length = 15 := by decide
  have hpos := csrSaveSize_pos lb ob wgt cw g.inG
  have key : (saveDiGraphO old T lb ob wgt cw g).Seg (fun _ => True) (fun s => s = old ∨ s = [] ∨ (∃ j, j ≤ 15 ∧ s = cutFile n digraphMagic j) ∨
      CsrMid n digraphMagic lb ob wgt cw g.inG s ∨ CsrMid n (digraphMagic ++ csrBytes lb ob wgt cw g.inG) lb ob wgt cw g.outG s) := by
    unfold saveDiGraphO
    rw [← hn]
    refine Obs.Seg.bind ((openO_seg (by omega)).mono ?_) (fun f hf => ?_)
    · rintro s (h | h | h)
      · exact .inl h
      · exact .inr (.inl h)
      · exact .inr (.inr (.inl ⟨0, by omega, by rw [h, stage_cut (F := digraphMagic) (by simp)]; rfl⟩))
    refine Obs.Seg.bind (P := fun f => Done f n [digraphMagic]) ⟨(wBytesO_seg hf digraphMagic (by simp; omega)).1, fun s hs => ?_⟩ (fun f hf => ?_)
    · obtain ⟨j, _, hj, h⟩ := wBytesO_cut hf (bs := digraphMagic) (F := digraphMagic) (by simp) (by omega) hs
      exact .inr (.inr (.inl ⟨j, by simpa [hd] using hj, h⟩))
    refine Obs.Seg.bind ((saveCsrToO_mid hT cw hi hf (by simp; omega) (by simp)).mono (fun s h => .inr (.inr (.inr (.inl h))))) (fun f hf => ?_)
    refine Obs.Seg.bind ((saveCsrToO_mid hT cw ho hf (by rw [List.flatten_append, List.length_append, hni]; simp; omega)
      (by rw [List.flatten_append, hfl]; simp)).mono (fun s h => .inr (.inr (.inr (.inr h))))) (fun f hf => Obs.Seg.pure trivial)
  exact key.2 s hs

/-! ## Loading one half -/

theorem R.Throws.after {α β : Type} {p : R α} {k : α → R β} {a : α} (ha : p.Any) (h : p.All (fun r => r = a)) (hk : (k a).Throws) : (p >>= k).Throws := by
  obtain ⟨o, ho⟩ := ha
  obtain ⟨b, rfl, rfl⟩ := h o ho
  obtain ⟨⟨o, ho'⟩, hp⟩ := hk
  refine ⟨⟨o, .ok b, ho, ho'⟩, ?_⟩
  rintro o' ⟨x, hx, h'⟩
  obtain ⟨c, rfl, rfl⟩ := h x hx
  exact hp o' h'

/-- No size is larger, and the arrays have the sizes. -/
structure Smaller (r c : Csr W) : Prop where
  n : r.n ≤ c.n
  m : r.m ≤ c.m
  nrows : r.nrows ≤ c.nrows
  ncols : r.ncols ≤ c.ncols
  offsets : r.offsets.length = r.n + 1
  endpoints : r.endpoints.length = r.m

theorem field_le {t C : List Byte} {hdr : Nat} (hl : C.length ≤ t.length) (hh : hdr ≤ C.length) (hz : ∀ i < hdr, t[i]? = C[i]? ∨ t[i]? = some 0) (pad : Nat)
    {p k v : Nat} {pre post : List Byte} (hv : v < 256 ^ k) (he : C = pre ++ (encLE k v ++ post)) (hp : pre.length = p) (hlt : p + k ≤ hdr) :
    decLE (fld (Mapping.mem ⟨t, pad⟩) p k) ≤ v ∧ (C.take hdr <+: t → decLE (fld (Mapping.mem ⟨t, pad⟩) p k) = v) := by
  rw [mem_slice (μ := ⟨t, pad⟩) (by show p + k ≤ t.length; omega)]
  have hC : fld C p k = encLE k v := fld_part he hp (encLE_length ..)
  constructor
  · have : Zeroed (fld t p k) (fld C p k) := by
      refine ⟨by rw [fld_length (by omega), fld_length (by omega)], fun i => ?_⟩
      rw [fld_get, fld_get]
      by_cases hi : i < k
      · rw [if_pos hi, if_pos hi]; exact hz _ (by omega)
      · rw [if_neg hi, if_neg hi]; exact .inl rfl
    have := this.le
    rwa [hC, decLE_encLE hv] at this
  · rintro ⟨u, hu⟩
    have : fld t p k = fld C p k := by
      apply List.ext_getElem?
      intro i
      rw [fld_get, fld_get]
      by_cases hi : i < k
      · rw [if_pos hi, if_pos hi, ← hu, List.getElem?_append_left (by rw [List.length_take]; omega), List.getElem?_take, if_pos (by omega)]
      · rw [if_neg hi, if_neg hi]
    show decLE (fld t p k) = v
    rw [this, hC, decLE_encLE hv]

/-- A half whose header is cut, or complete with anything behind it. -/
theorem half_torn (P : Params W) (hT : 0 < P.T) (hob : 0 < P.ob) {c : Csr W} (h : FitsCsr P.lb P.ob P.wk.wgt P.cw c) (fn : List Byte) (μ : Mapping) (q : Nat)
    (hm : HasAt μ q csrMagic) (hl : (csrBytes P.lb P.ob P.wk.wgt P.cw c).length ≤ (μ.bytes.drop q).length)
    (hz : ∀ i < 13 + 3 * P.lb + P.ob, (μ.bytes.drop q)[i]? = (csrBytes P.lb P.ob P.wk.wgt P.cw c)[i]? ∨ (μ.bytes.drop q)[i]? = some 0) :
    (readCsr P μ fn q .auto).Throws ∨
    (readCsr P μ fn q .auto).All (fun r => Smaller r.1 c ∧ q + (13 + 3 * P.lb + P.ob) ≤ r.2 ∧ r.2 ≤ q + (csrBytes P.lb P.ob P.wk.wgt P.cw c).length ∧
      ((csrBytes P.lb P.ob P.wk.wgt P.cw c).take (13 + 3 * P.lb + P.ob) <+: μ.bytes.drop q → r.2 = q + (csrBytes P.lb P.ob P.wk.wgt P.cw c).length)) := by
  have hlen := csrBytes_length P.cw h
  have l11 : csrMagic.length = 11 := by decide
  have hsz : csrSaveSize P.lb P.ob P.wk.wgt P.cw c = 13 + P.lb + P.ob + P.lb + P.lb + P.ob * (c.n + 1) + P.lb * c.m + weightSize P.wk.wgt P.cw c.m := by
    unfold csrSaveSize
    rw [l11, succL_eq h.room]
    omega
  rw [hsz] at hlen
  have hlm : 0 < P.ob * (c.n + 1) := Nat.mul_pos hob (by omega)
  have hq : q ≤ μ.bytes.length := by have := hm.2; omega
  have hsh := shiftTo_drop hq
  obtain ⟨t, ht⟩ : ∃ t, μ.bytes.drop q = t := ⟨_, rfl⟩
  rw [ht] at hl hz hsh ⊢
  have hm0 : HasAt ⟨t, μ.pad⟩ 0 csrMagic := by
    refine ⟨by rw [List.drop_zero]; exact ht ▸ hm.1, ?_⟩
    show _ < t.length
    omega
  obtain ⟨a, b, rest, hb⟩ := torn_hdr (by show _ + 2 < t.length; omega) hm0
  rw [readCsr_half P (ht.trans hb) fn, show q = q + 0 from rfl, hsh.readBinCsr]
  by_cases hab : a.toNat ≠ P.lb ∨ b.toNat ≠ P.ob
  · exact .inl (R.Throws.bind_left ((C42_sizes P.T P.lb P.ob P.wk.wgt P.cw _ a b rest hab).2.1 hb))
  · simp only [ne_eq, not_or, Decidable.not_not] at hab
    obtain ⟨ha, hb'⟩ := hab
    right
    generalize hC : csrBytes P.lb P.ob P.wk.wgt P.cw c = C at *
    have hC' := hC.symm
    have hh : 13 + 3 * P.lb + P.ob ≤ C.length := by omega
    have e1 := field_le hl hh hz μ.pad (p := 13) (k := P.lb) (pre := csrMagic ++ encLE 1 P.lb ++ encLE 1 P.ob) h.n
      (by rw [hC']; simp only [csrBytes, List.append_assoc]; rfl) (by simp [l11]) (by omega)
    have e2 := field_le hl hh hz μ.pad (p := 13 + P.lb) (k := P.ob) (pre := csrMagic ++ encLE 1 P.lb ++ encLE 1 P.ob ++ encLE P.lb c.n) h.m
      (by rw [hC']; simp only [csrBytes, List.append_assoc]; rfl) (by simp [l11]; omega) (by omega)
    have e3 := field_le hl hh hz μ.pad (p := 13 + P.lb + P.ob) (k := P.lb) (pre := csrMagic ++ encLE 1 P.lb ++ encLE 1 P.ob ++ encLE P.lb c.n ++ encLE P.ob c.m) h.nrows
      (by rw [hC']; simp only [csrBytes, List.append_assoc]; rfl) (by simp [l11]; omega) (by omega)
    have e4 := field_le hl hh hz μ.pad (p := 13 + P.lb + P.ob + P.lb) (k := P.lb)
      (pre := csrMagic ++ encLE 1 P.lb ++ encLE 1 P.ob ++ encLE P.lb c.n ++ encLE P.ob c.m ++ encLE P.lb c.nrows) h.ncols
      (by rw [hC']; simp only [csrBytes, List.append_assoc]; rfl) (by simp [l11]; omega) (by omega)
    have hsucc : succL P.lb (decLE (fld (Mapping.mem ⟨t, μ.pad⟩) 13 P.lb)) = decLE (fld (Mapping.mem ⟨t, μ.pad⟩) 13 P.lb) + 1 :=
      succL_eq (h.room.imp id (fun h => by have := e1.1; omega))
    have h1 := Nat.mul_le_mul_left P.lb e2.1
    have h2 := weightSize_le (wgt := P.wk.wgt) (cw := P.cw) e2.1
    have h4 := Nat.mul_le_mul_left P.ob (Nat.succ_le_succ e1.1)
    simp only [Nat.succ_eq_add_one] at h4
    have hend : csrEndM P.lb P.ob P.wk.wgt P.cw (Mapping.mem ⟨t, μ.pad⟩) ≤ C.length := by
      unfold csrEndM; rw [hsucc]; omega
    have h3 : t.length ≤ (Mapping.mem ⟨t, μ.pad⟩).length := by rw [Mapping.mem_length]; exact Nat.le_add_right _ _
    have key := readBinCsr_slice_pos (wgt := P.wk.wgt) hT a b P.cw hb (by rw [ha, hb']; omega)
    rw [ha, hb'] at key
    refine R.All.bind key (fun r hr => ?_)
    subst hr
    refine R.All.pure ⟨⟨e1.1, e2.1, e3.1, e4.1, ?_, ?_⟩, ?_, ?_, fun hpre => ?_⟩
    · show (csrIn P.lb P.ob P.wk.wgt P.cw (Mapping.mem ⟨t, μ.pad⟩)).offsets.length = _
      rw [csrIn, decArr_length, hsucc]
    · exact decArr_length
    · show q + _ ≤ q + 0 + csrEndM P.lb P.ob P.wk.wgt P.cw (Mapping.mem ⟨t, μ.pad⟩)
      unfold csrEndM; omega
    · show q + 0 + csrEndM P.lb P.ob P.wk.wgt P.cw (Mapping.mem ⟨t, μ.pad⟩) ≤ _
      omega
    · show q + 0 + csrEndM P.lb P.ob P.wk.wgt P.cw (Mapping.mem ⟨t, μ.pad⟩) = _
      have f1 := e1.2 hpre
      have f2 := e2.2 hpre
      unfold csrEndM
      rw [hsucc, f1, f2]
      omega

theorem blank_01 (n : Nat) : ∀ c ∈ blank n, c = 0 ∨ c = 1 := by
  intro c hc
  rcases List.mem_append.mp hc with h | h
  · exact .inl (List.mem_replicate.mp h).2
  · exact .inr (List.mem_singleton.mp h)

theorem blank_get {n i : Nat} (h : i + 1 < n) : (blank n)[i]? = some 0 := by
  rw [blank, List.getElem?_append_left (by rw [List.length_replicate]; omega), List.getElem?_replicate, if_pos (by omega)]

theorem not_hasAt_of_get {μ : Mapping} {q : Nat} {m : List Byte} {i : Nat} {b : Byte} (hi : i < m.length) (hb : m[i]? ≠ some b) (ht : (μ.bytes.drop q)[i]? = some b) :
    ¬ HasAt μ q m := by
  rintro ⟨⟨u, hu⟩, _⟩
  rw [← hu, List.getElem?_append_left hi] at ht
  exact hb ht

/-- Where nothing is written there is a graph of one vertex. -/
theorem readCsr_blank (P : Params W) (hT : 0 < P.T) (hlb : 0 < P.lb) (hob : 0 < P.ob) (fn : List Byte) (h1 : ¬ str ".mtx" <:+ fn) (h2 : ¬ str ".graph" <:+ fn)
    {μ : Mapping} (hpad : 0 < μ.pad) {n e q : Nat} (he : μ.bytes.drop e = (blank n).drop e) (hq : e ≤ q) :
    (readCsr P μ fn q .auto).All (fun r => NoEdges r.1 ∧ r.2 = q) := by
  have hd : μ.bytes.drop q = (blank n).drop q := by
    rw [show q = e + (q - e) by omega, ← List.drop_drop, ← List.drop_drop, he]
  have hmem : ∀ c ∈ μ.bytes.drop q, c ∈ blank n := fun c hc => List.mem_of_mem_drop (hd ▸ hc)
  refine readCsr_nothing P hT hlb hob μ hpad fn q h1 h2 ?_ (fun c hc => blank_no_digits n c (hmem c hc))
  rintro ⟨⟨u, hu⟩, _⟩
  have : (80 : Byte) ∈ μ.bytes.drop q := by
    rw [← hu]; exact List.mem_append_left _ (by decide)
  rcases blank_01 n _ (hmem _ this) with h | h <;> exact absurd h (by decide)

/-- A half that is cut in its header: the load throws, gives a smaller graph and goes on behind the header, or gives a graph of one vertex and stays where it is. -/
theorem half_cut (P : Params W) (hT : 0 < P.T) (hlb : 0 < P.lb) (hob : 0 < P.ob) {c : Csr W} (h : FitsCsr P.lb P.ob P.wk.wgt P.cw c) (fn : List Byte)
    (h1 : ¬ str ".mtx" <:+ fn) (h2 : ¬ str ".graph" <:+ fn) {μ : Mapping} (hpad : 0 < μ.pad) {n q i : Nat} (hi : i ≤ 13 + 3 * P.lb + P.ob)
    (hn : q + csrSaveSize P.lb P.ob P.wk.wgt P.cw c ≤ n)
    (hd : μ.bytes.drop q = (csrBytes P.lb P.ob P.wk.wgt P.cw c).take i ++ (blank n).drop (q + i)) :
    (readCsr P μ fn q .auto).Throws ∨
    (readCsr P μ fn q .auto).All (fun r => Smaller r.1 c ∧ q + i ≤ r.2) ∨ (readCsr P μ fn q .auto).All (fun r => NoEdges r.1 ∧ r.2 = q) := by
  have hlen := csrBytes_length P.cw h
  have l11 : csrMagic.length = 11 := by decide
  have hsz : csrSaveSize P.lb P.ob P.wk.wgt P.cw c = 13 + P.lb + P.ob + P.lb + P.lb + P.ob * (c.n + 1) + P.lb * c.m + weightSize P.wk.wgt P.cw c.m := by
    unfold csrSaveSize
    rw [l11, succL_eq h.room]
    omega
  rw [hsz] at hlen hn
  have hlm : 0 < P.ob * (c.n + 1) := Nat.mul_pos hob (by omega)
  obtain ⟨l, hl⟩ := csrBytes_magic P.lb P.ob P.wk.wgt P.cw c
  generalize hC : csrBytes P.lb P.ob P.wk.wgt P.cw c = C at *
  have hti : (C.take i).length = i := by rw [List.length_take]; omega
  have hnext : (μ.bytes.drop q)[i]? = (blank n)[q + i]? := by
    rw [hd, List.getElem?_append_right (by omega), hti, List.getElem?_drop]; congr 1; omega
  have hdl : (μ.bytes.drop q).length = n - q := by
    rw [hd, List.length_append, hti, List.length_drop, blank_length (by omega)]; omega
  rcases Nat.lt_or_ge i 4 with h4 | h4
  · right; right
    have hz : (μ.bytes.drop q)[i]? = some 0 := by rw [hnext, blank_get (by omega)]
    refine readCsr_nothing P hT hlb hob μ hpad fn q h1 h2 (not_hasAt_of_get (by rw [show (str "PIGO").length = 4 by decide]; exact h4) ?_ hz) ?_
    · have : ∀ i < 4, (str "PIGO")[i]? ≠ some 0 := by decide
      exact this i h4
    · intro c hc
      rw [hd] at hc
      rcases List.mem_append.mp hc with hc | hc
      · have : ∀ c ∈ csrMagic.take 4, isDigit c = false := by decide
        refine this c ?_
        rw [hl, List.append_assoc csrMagic, List.take_append_of_le_length (by omega),
          show csrMagic.take i = (csrMagic.take 4).take i by rw [List.take_take, Nat.min_eq_left (by omega)]] at hc
        exact List.mem_of_mem_take hc
      · exact blank_no_digits n c (List.mem_of_mem_drop hc)
  rcases Nat.lt_or_ge i 11 with h11 | h11
  · left
    have hz : (μ.bytes.drop q)[i]? = some 0 := by rw [hnext, blank_get (by omega)]
    have hp : HasAt μ q (str "PIGO") := by
      refine ⟨?_, ?_⟩
      · rw [hd, hl, List.append_assoc csrMagic, List.take_append_of_le_length (by omega)]
        refine List.IsPrefix.trans ?_ (List.prefix_append _ _)
        rw [show str "PIGO" = (csrMagic.take i).take 4 by rw [List.take_take, Nat.min_eq_left h4]; rfl]
        exact List.take_prefix _ _
      · rw [List.length_drop] at hdl
        rw [show (str "PIGO").length = 4 by decide]; omega
    have hty : usedType μ fn q .auto = .error .error := by
      unfold usedType
      rw [if_pos rfl]
      refine C45_unknown_magic μ fn q (fun m hm => ?_) hp
      have : ∀ m ∈ magics, 11 ≤ m.1.length ∧ ∀ i < 11, m.1[i]? ≠ some 0 := by decide
      exact not_hasAt_of_get (by have := (this m hm).1; omega) ((this m hm).2 i h11) hz
    unfold readCsr
    exact R.Throws.bind_left (R.Throws.lift hty)
  · have hm : HasAt μ q csrMagic := by
      refine ⟨?_, by rw [List.length_drop] at hdl; omega⟩
      rw [hd]
      refine List.IsPrefix.trans ?_ (List.prefix_append _ _)
      rw [hl, List.append_assoc csrMagic, List.take_append, List.take_of_length_le (l := csrMagic) (by omega)]
      exact List.prefix_append _ _
    have hz : ∀ k < 13 + 3 * P.lb + P.ob, (μ.bytes.drop q)[k]? = C[k]? ∨ (μ.bytes.drop q)[k]? = some 0 := by
      intro k hk
      rcases Nat.lt_or_ge k i with hki | hki
      · left
        rw [hd, List.getElem?_append_left (by omega), List.getElem?_take, if_pos hki]
      · right
        rw [hd, List.getElem?_append_right (by omega), hti, List.getElem?_drop, blank_get (by omega)]
    rcases half_torn P hT hob h fn μ q hm (by rw [hC, hdl]; omega) (by rw [hC]; exact hz) with ht | ht
    · exact .inl ht
    · refine .inr (.inl (ht.mono fun r hr => ⟨hr.1, ?_⟩))
      have := hr.2.1
      omega

/-- A half with a complete header. -/
theorem half_head (P : Params W) (hT : 0 < P.T) (hlb : P.lb < 256) (hob : 0 < P.ob ∧ P.ob < 256) {c : Csr W} (h : FitsCsr P.lb P.ob P.wk.wgt P.cw c) (fn : List Byte) {μ : Mapping} {q : Nat}
    (hl : csrSaveSize P.lb P.ob P.wk.wgt P.cw c ≤ (μ.bytes.drop q).length)
    (hd : (csrBytes P.lb P.ob P.wk.wgt P.cw c).take (13 + 3 * P.lb + P.ob) <+: μ.bytes.drop q) :
    (readCsr P μ fn q .auto).Throws ∨
    (readCsr P μ fn q .auto).All (fun r => Smaller r.1 c ∧ r.2 = q + csrSaveSize P.lb P.ob P.wk.wgt P.cw c) := by
  have hlen := csrBytes_length P.cw h
  have l11 : csrMagic.length = 11 := by decide
  have hsz : csrSaveSize P.lb P.ob P.wk.wgt P.cw c = 13 + P.lb + P.ob + P.lb + P.lb + P.ob * (c.n + 1) + P.lb * c.m + weightSize P.wk.wgt P.cw c.m := by
    unfold csrSaveSize
    rw [l11, succL_eq h.room]
    omega
  have hlm : 0 < P.ob * (c.n + 1) := Nat.mul_pos hob.1 (by omega)
  obtain ⟨l, hl'⟩ := csrBytes_magic P.lb P.ob P.wk.wgt P.cw c
  have hm : HasAt μ q csrMagic := by
    refine ⟨List.IsPrefix.trans ?_ hd, ?_⟩
    · rw [hl', List.append_assoc csrMagic, List.take_append, List.take_of_length_le (l := csrMagic) (by omega)]
      exact List.prefix_append _ _
    · rw [List.length_drop] at hl; omega
  have hz : ∀ k < 13 + 3 * P.lb + P.ob, (μ.bytes.drop q)[k]? = (csrBytes P.lb P.ob P.wk.wgt P.cw c)[k]? ∨ (μ.bytes.drop q)[k]? = some 0 := by
    intro k hk
    left
    obtain ⟨u, hu⟩ := hd
    rw [← hu, List.getElem?_append_left (by rw [List.length_take]; omega), List.getElem?_take, if_pos hk]
  rcases half_torn P hT hob.1 h fn μ q hm (by rw [hlen]; exact hl) hz with ht | ht
  · exact .inl ht
  · refine .inr (ht.mono fun r hr => ⟨hr.1, ?_⟩)
    rw [hr.2.2.2 hd, hlen]

theorem drop_cutFile {n : Nat} {pre C : List Byte} (i : Nat) (hi : i ≤ C.length) : (cutFile n (pre ++ C) (pre.length + i)).drop pre.length = C.take i ++ (blank n).drop (pre.length + i) := by
  rw [cutFile, List.take_length_add_append, List.append_assoc, List.drop_left]

theorem drop_cutFile' {n : Nat} {pre C : List Byte} (i : Nat) (hi : i ≤ C.length) :
    (cutFile n (pre ++ C) (pre.length + i)).drop (pre.length + i) = (blank n).drop (pre.length + i) := by
  rw [cutFile, List.drop_left' (by rw [List.length_take, List.length_append]; omega)]

/-- The first graph is complete. -/
theorem first_half (P : Params W) (hT' : 0 < P.T) (hlb : P.lb < 256) (hob : P.ob < 256) {c : Csr W} (hi : FitsCsr P.lb P.ob P.wk.wgt P.cw c) (fn : List Byte) (pad : Nat)
    {s u : List Byte} (hu : s = digraphMagic ++ csrBytes P.lb P.ob P.wk.wgt P.cw c ++ u) :
    (readCsr P ⟨s, pad⟩ fn 15 .auto).All (fun r => r = (c, 15 + csrSaveSize P.lb P.ob P.wk.wgt P.cw c)) := by
  have hd : digraphMagic.length = 15 := by decide
  obtain ⟨l, hl⟩ := csrBytes_magic P.lb P.ob P.wk.wgt P.cw c
  have hr : Rest ⟨s, pad⟩ 15 (csrBytes P.lb P.ob P.wk.wgt P.cw c ++ (u ++ List.replicate pad 0)) := by
    have := rest_file (bs := s) (pad := pad)
    rw [hu, List.append_assoc digraphMagic, List.append_assoc digraphMagic] at this
    have := this.next
    rw [hd, Nat.zero_add, ← List.append_assoc digraphMagic, ← hu, List.append_assoc] at this
    exact this
  have hm : HasAt ⟨s, pad⟩ 15 csrMagic := by
    refine hasAt_drop (t := le 1 P.lb ++ l ++ u) ?_ (by rw [List.append_assoc]; exact le_ne_nil _ _)
    show s.drop 15 = _
    rw [hu, List.append_assoc, List.drop_left' hd, hl]
    simp only [List.append_assoc]
  have := readCsr_at P hT' hlb hob hi fn hr hm (.inl rfl)
  rwa [csrBytes_length P.cw hi] at this

/-- **C89 (DiGraph)**: what an interrupted save of a DiGraph leaves is the old file, an empty file, or a file that, when loaded under a name that does not end with
`.mtx` or `.graph`, throws `Error` or gives two graphs.  Either the first is the one saved, and the second is one with sizes that are not larger than those saved
and with arrays of these sizes, or one without edges; or the first is such a graph, and the second has no edges.  Nothing is read outside of the mapping. -/
theorem C89_digraph_load [Nonempty W] (P : Params W) (hT' : 0 < P.T) (hlb : 0 < P.lb ∧ P.lb < 256) (hob : 0 < P.ob ∧ P.ob < 256) (T : Nat) (hT : 0 < T) (old : List Byte)
    (g : DiGraph W) (hi : FitsCsr P.lb P.ob P.wk.wgt P.cw g.inG) (ho : FitsCsr P.lb P.ob P.wk.wgt P.cw g.outG) (s : List Byte)
    (hs : (saveDiGraphO old T P.lb P.ob P.wk.wgt P.cw g).seen s) (fn : List Byte) (h1 : ¬ str ".mtx" <:+ fn) (h2 : ¬ str ".graph" <:+ fn) (pad : Nat)
    (hpad : 0 < pad) :
    s = old ∨ s = [] ∨ (readDiGraphBin P ⟨s, pad⟩ fn 0).Throws ∨
    (readDiGraphBin P ⟨s, pad⟩ fn 0).All (fun r =>
      (r.inG = g.inG ∧ (Smaller r.outG g.outG ∨ NoEdges r.outG)) ∨ ((Smaller r.inG g.inG ∨ NoEdges r.inG) ∧ NoEdges r.outG)) := by
  obtain ⟨n, hn⟩ : ∃ n, n = digraphMagic.length + csrSaveSize P.lb P.ob P.wk.wgt P.cw g.inG + csrSaveSize P.lb P.ob P.wk.wgt P.cw g.outG := ⟨_, rfl⟩
  have hd : digraphMagic.length = 15 := by decide
  have hli := csrBytes_length P.cw hi
  have hlo := csrBytes_length P.cw ho
  have l11 : csrMagic.length = 11 := by decide
  have hsz : ∀ c : Csr W, FitsCsr P.lb P.ob P.wk.wgt P.cw c → 13 + 3 * P.lb + P.ob < csrSaveSize P.lb P.ob P.wk.wgt P.cw c := by
    intro c h
    unfold csrSaveSize
    have : 0 < P.ob * (c.n + 1) := Nat.mul_pos hob.1 (by omega)
    rw [l11, succL_eq h.room]
    omega
  have hzi := hsz _ hi
  have hzo := hsz _ ho
  have start : ∀ {u : List Byte}, s = digraphMagic ++ u → u ≠ [] → rdStr ⟨s, pad⟩ digraphMagic 0 = .ok 15 := by
    intro u hu hne
    rw [rdStr_good (hasAt_zero (t := u) hu hne)]
    rfl
  rcases saveDiGraphO_mid hT P.cw hi ho hn hs with h | h | ⟨j, hj, h⟩ | (⟨j, hj, h⟩ | h) | (⟨j, hj, h⟩ | h)
  · exact .inl h
  · exact .inr (.inl h)
  · -- the name of the format is cut, or all of the rest is blank
    right; right
    by_cases hj' : j = 15
    · right
      subst hj'
      have hs' : s = digraphMagic ++ (blank n).drop 15 := by rw [h]; rfl
      have hdr : s.drop 15 = (blank n).drop 15 := by rw [hs', List.drop_left' hd]
      have hb := readCsr_blank P hT' hlb.1 hob.1 fn h1 h2 (μ := ⟨s, pad⟩) hpad hdr (Nat.le_refl _)
      unfold readDiGraphBin
      refine R.All.step (start hs' ?_) (R.All.bind hb fun r hr => ?_)
      · rw [← List.length_pos_iff, List.length_drop, blank_length (by omega)]; omega
      obtain ⟨c1, p1⟩ := r
      obtain ⟨hr1, (hr2 : p1 = 15)⟩ := hr
      subst hr2
      exact R.All.bind hb fun r' hr' => R.All.pure (.inr ⟨.inr hr1, hr'.1⟩)
    · left
      unfold readDiGraphBin
      refine R.Throws.bind_left (R.Throws.lift (rdStr_bad ?_))
      refine not_hasAt_of_get (i := j) (b := 0) (by omega) ?_ ?_
      · have : ∀ j < 15, digraphMagic[j]? ≠ some 0 := by decide
        exact this j (by omega)
      · show (s.drop 0)[j]? = _
        rw [h, cutFile, List.drop_zero, List.getElem?_append_right (by rw [List.length_take]; omega), List.getElem?_drop, List.length_take]
        rw [show j + (j - min j digraphMagic.length) = j by omega]
        exact blank_get (by omega)
  · -- the header of the first graph is cut
    right; right
    have hdr := drop_cutFile (n := n) (pre := digraphMagic) (C := csrBytes P.lb P.ob P.wk.wgt P.cw g.inG) j (by omega)
    have hdr' := drop_cutFile' (n := n) (pre := digraphMagic) (C := csrBytes P.lb P.ob P.wk.wgt P.cw g.inG) j (by omega)
    rw [← h, hd] at hdr hdr'
    have hs' : s = digraphMagic ++ s.drop 15 := by
      rw [hdr, h, hd, cutFile, ← hd, List.take_length_add_append, List.append_assoc]
    have hne : s.drop 15 ≠ [] := by
      rw [hdr, ← List.length_pos_iff, List.length_append, List.length_drop, blank_length (by omega)]; omega
    have hc := half_cut P hT' hlb.1 hob.1 hi fn h1 h2 (μ := ⟨s, pad⟩) hpad (n := n) (q := 15) hj (by omega) hdr
    unfold readDiGraphBin
    rcases hc with hc | hc | hc
    · exact .inl (R.Throws.step (start hs' hne) (R.Throws.bind_left hc))
    · refine .inr (R.All.step (start hs' hne) (R.All.bind hc fun r hr => ?_))
      exact R.All.bind (readCsr_blank P hT' hlb.1 hob.1 fn h1 h2 (μ := ⟨s, pad⟩) hpad hdr' hr.2) fun r' hr' => R.All.pure (.inr ⟨.inl hr.1, hr'.1⟩)
    · refine .inr (R.All.step (start hs' hne) (R.All.bind hc fun r hr => ?_))
      obtain ⟨c1, p1⟩ := r
      obtain ⟨hr1, (hr2 : p1 = 15)⟩ := hr
      subst hr2
      exact R.All.bind hc fun r' hr' => R.All.pure (.inr ⟨.inr hr1, hr'.1⟩)
  · -- the arrays of the first graph
    right; right
    have hpre : digraphMagic <+: s := (List.prefix_append _ _).trans h.head
    obtain ⟨u, hu⟩ := hpre
    have hul : u.length + 15 = n := by rw [← h.len, ← hu, List.length_append, hd]; omega
    have hdr : s.drop 15 = u := by rw [← hu, List.drop_left' hd]
    have hne : u ≠ [] := by rw [← List.length_pos_iff]; omega
    have hhd : (csrBytes P.lb P.ob P.wk.wgt P.cw g.inG).take (13 + 3 * P.lb + P.ob) <+: s.drop 15 := by
      have := h.head
      rw [← hu, List.prefix_append_right_inj] at this
      rw [hdr]; exact this
    have htl := h.tail
    rw [hd] at htl
    unfold readDiGraphBin
    rcases half_head P hT' hlb.2 hob hi fn (μ := ⟨s, pad⟩) (q := 15) (by show _ ≤ (s.drop 15).length; rw [hdr]; omega) hhd with hc | hc
    · exact .inl (R.Throws.step (start hu.symm hne) (R.Throws.bind_left hc))
    · refine .inr (R.All.step (start hu.symm hne) (R.All.bind hc fun r hr => ?_))
      exact R.All.bind (readCsr_blank P hT' hlb.1 hob.1 fn h1 h2 (μ := ⟨s, pad⟩) hpad htl (by rw [hr.2]; exact Nat.le_refl _)) fun r' hr' =>
        R.All.pure (.inr ⟨.inl hr.1, hr'.1⟩)
  all_goals right; right
  all_goals
    have first : ∀ {u : List Byte}, s = digraphMagic ++ csrBytes P.lb P.ob P.wk.wgt P.cw g.inG ++ u → u ≠ [] →
        (readCsr P ⟨s, pad⟩ fn 15 .auto).All (fun r => r = (g.inG, 15 + csrSaveSize P.lb P.ob P.wk.wgt P.cw g.inG)) :=
      fun hu _ => first_half P hT' hlb.2 hob.2 hi fn pad hu
    have hdl : (digraphMagic ++ csrBytes P.lb P.ob P.wk.wgt P.cw g.inG).length = 15 + csrSaveSize P.lb P.ob P.wk.wgt P.cw g.inG := by
      rw [List.length_append, hd, hli]
  · -- the header of the second graph is cut
    have hdr := drop_cutFile (n := n) (pre := digraphMagic ++ csrBytes P.lb P.ob P.wk.wgt P.cw g.inG) (C := csrBytes P.lb P.ob P.wk.wgt P.cw g.outG) j (by omega)
    rw [← h] at hdr
    have hs' : s = digraphMagic ++ csrBytes P.lb P.ob P.wk.wgt P.cw g.inG ++ s.drop (digraphMagic ++ csrBytes P.lb P.ob P.wk.wgt P.cw g.inG).length := by
      rw [hdr, h, cutFile, List.take_length_add_append, List.append_assoc _ (List.take _ _)]
    have hne : s.drop (digraphMagic ++ csrBytes P.lb P.ob P.wk.wgt P.cw g.inG).length ≠ [] := by
      rw [hdr, ← List.length_pos_iff, List.length_append, List.length_drop, blank_length (by omega), hdl]; omega
    rw [hdl] at hs' hne hdr
    have hst := start (u := csrBytes P.lb P.ob P.wk.wgt P.cw g.inG ++ s.drop (15 + csrSaveSize P.lb P.ob P.wk.wgt P.cw g.inG))
      (by rw [← List.append_assoc]; exact hs') (by simp [hne])
    unfold readDiGraphBin
    rcases half_cut P hT' hlb.1 hob.1 ho fn h1 h2 (μ := ⟨s, pad⟩) hpad (n := n) hj (by omega) hdr with hc | hc | hc
    · refine .inl (R.Throws.step hst (R.Throws.after (csr_any P hT' ..) (first hs' hne) (R.Throws.bind_left hc)))
    all_goals
      refine .inr (R.All.step hst (R.All.bind (first hs' hne) fun r hr => ?_))
      subst hr
    · exact R.All.bind hc fun r' hr' => R.All.pure (.inl ⟨rfl, .inl hr'.1⟩)
    · exact R.All.bind hc fun r' hr' => R.All.pure (.inl ⟨rfl, .inr hr'.1⟩)
  · -- the arrays of the second graph
    obtain ⟨u, hu⟩ := (List.prefix_append _ _).trans h.head
    have hul : u.length + (15 + csrSaveSize P.lb P.ob P.wk.wgt P.cw g.inG) = n := by rw [← h.len, ← hu, List.length_append, hdl]; omega
    have hdr : s.drop (15 + csrSaveSize P.lb P.ob P.wk.wgt P.cw g.inG) = u := by rw [← hu, List.drop_left' hdl]
    have hne : u ≠ [] := by rw [← List.length_pos_iff]; omega
    have hhd : (csrBytes P.lb P.ob P.wk.wgt P.cw g.outG).take (13 + 3 * P.lb + P.ob) <+: s.drop (15 + csrSaveSize P.lb P.ob P.wk.wgt P.cw g.inG) := by
      have := h.head
      rw [← hu, List.prefix_append_right_inj] at this
      rw [hdr]; exact this
    have hst := start (u := csrBytes P.lb P.ob P.wk.wgt P.cw g.inG ++ u) (by rw [← List.append_assoc]; exact hu.symm) (by simp [hne])
    unfold readDiGraphBin
    rcases half_head P hT' hlb.2 hob ho fn (μ := ⟨s, pad⟩) (q := 15 + csrSaveSize P.lb P.ob P.wk.wgt P.cw g.inG) (by show _ ≤ (s.drop _).length; rw [hdr]; omega) hhd with hc | hc
    · refine .inl (R.Throws.step hst (R.Throws.after (csr_any P hT' ..) (first hu.symm hne) (R.Throws.bind_left hc)))
    · refine .inr (R.All.step hst (R.All.bind (first hu.symm hne) fun r hr => ?_))
      subst hr
      exact R.All.bind hc fun r' hr' => R.All.pure (.inl ⟨rfl, .inl hr'.1⟩)

example := C89_digraph_load binParams (by decide) (by decide) (by decide) 3 (by decide) (str "old") ⟨binCsr, binCsr⟩ binCsr_fits binCsr_fits

/-- **C89 is violated (DiGraph)**: if a save is interrupted when the graph of the in-edges is written and that of the out-edges is not begun, the file is loaded
without an error, by every execution, as a graph that has the in-edges saved and no out-edges. -/
theorem C89_digraph_half_violated (P : Params W) (hT' : 0 < P.T) (hlb : 0 < P.lb ∧ P.lb < 256) (hob : 0 < P.ob ∧ P.ob < 256) (T : Nat) (hT : 0 < T) (old : List Byte)
    (g : DiGraph W) (hi : FitsCsr P.lb P.ob P.wk.wgt P.cw g.inG) (ho : FitsCsr P.lb P.ob P.wk.wgt P.cw g.outG) :
    ∃ s, (saveDiGraphO old T P.lb P.ob P.wk.wgt P.cw g).seen s ∧ ∀ fn pad, ¬ str ".mtx" <:+ fn → ¬ str ".graph" <:+ fn → 0 < pad →
      (readDiGraphBin P ⟨s, pad⟩ fn 0).All (fun r => r.inG = g.inG ∧ NoEdges r.outG) := by
  have hd : digraphMagic.length = 15 := by decide
  have hli := csrBytes_length P.cw hi
  have hlo := csrBytes_length P.cw ho
  have hp := csrSaveSize_pos P.lb P.ob P.wk.wgt P.cw g.outG
  have hfile : digraphFile P.lb P.ob P.wk.wgt P.cw g = digraphMagic ++ csrBytes P.lb P.ob P.wk.wgt P.cw g.inG ++ csrBytes P.lb P.ob P.wk.wgt P.cw g.outG := by
    rw [csrBytes_eq, csrBytes_eq]; rfl
  have hl : (digraphFile P.lb P.ob P.wk.wgt P.cw g).length = 15 + csrSaveSize P.lb P.ob P.wk.wgt P.cw g.inG + csrSaveSize P.lb P.ob P.wk.wgt P.cw g.outG := by
    rw [hfile, List.length_append, List.length_append, hd, hli, hlo]
  have hj := (C89_every_prefix old T P.lb P.ob hT P.wk.wgt P.cw).2.2.1 g hi ho (15 + csrSaveSize P.lb P.ob P.wk.wgt P.cw g.inG) (by omega)
  rw [hl] at hj
  have hdl : (digraphMagic ++ csrBytes P.lb P.ob P.wk.wgt P.cw g.inG).length = 15 + csrSaveSize P.lb P.ob P.wk.wgt P.cw g.inG := by
    rw [List.length_append, hd, hli]
  rw [hfile, List.take_left' hdl] at hj
  refine ⟨_, hj, fun fn pad h1 h2 hpad => ?_⟩
  generalize hs : digraphMagic ++ csrBytes P.lb P.ob P.wk.wgt P.cw g.inG ++ (blank (15 + csrSaveSize P.lb P.ob P.wk.wgt P.cw g.inG +
    csrSaveSize P.lb P.ob P.wk.wgt P.cw g.outG)).drop (15 + csrSaveSize P.lb P.ob P.wk.wgt P.cw g.inG) = s
  unfold readDiGraphBin
  refine R.All.step (a := 15) ?_ (R.All.bind (first_half P hT' hlb.2 hob.2 hi fn pad hs.symm) fun r hr => ?_)
  · rw [rdStr_good (hasAt_zero (t := s.drop 15) ?_ ?_)]
    · rfl
    · show s = _
      rw [← hs, List.append_assoc, List.drop_left' hd]
    · rw [← List.length_pos_iff, List.length_drop, ← hs, List.length_append, hdl, List.length_drop, blank_length (by omega)]; omega
  subst hr
  have hb : s.drop (15 + csrSaveSize P.lb P.ob P.wk.wgt P.cw g.inG) = (blank (15 + csrSaveSize P.lb P.ob P.wk.wgt P.cw g.inG +
      csrSaveSize P.lb P.ob P.wk.wgt P.cw g.outG)).drop (15 + csrSaveSize P.lb P.ob P.wk.wgt P.cw g.inG) := by
    rw [← hs, List.drop_left' hdl]
  exact R.All.bind (readCsr_blank P hT' hlb.1 hob.1 fn h1 h2 (μ := ⟨s, pad⟩) hpad hb (Nat.le_refl _)) fun r hr => R.All.pure ⟨rfl, hr.1⟩

example := C89_digraph_half_violated binParams (by decide) (by decide) (by decide) 3 (by decide) (str "old") ⟨binCsr, binCsr⟩ binCsr_fits binCsr_fits

end Pigo
