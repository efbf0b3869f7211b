import Verif.Props.Crash
import Verif.Props.Total
import Verif.Spec.Cut

/-!
# C43, C89: exactly when a binary file is read outside of the mapping
-/

namespace Pigo

open Spec

variable {W α β : Type}

/-- Every execution reads outside of the mapping. -/
def R.Outside (p : R α) : Prop := ∀ o, p.Out o → o = .error .oob

theorem R.Outside.bind_left {p : R α} {k : α → R β} (h : p.Outside) : (p >>= k).Outside := by
  rintro o ⟨o1, h1, h2⟩
  have := h o1 h1
  subst this
  exact h2

theorem R.Outside.after {p : R α} {k : α → R β} {Q : α → Prop} (hp : p.All Q) (hk : ∀ a, Q a → (k a).Outside) : (p >>= k).Outside := by
  rintro o ⟨o1, h1, h2⟩
  obtain ⟨a, rfl, ha⟩ := hp o1 h1
  exact hk a ha o h2

theorem R.Outside.step {m : M α} {k : α → R β} {a : α} (h : m = .ok a) (hk : (k a).Outside) : (R.lift m >>= k).Outside :=
  R.Outside.after (Q := fun b => b = a) (fun o ho => ⟨a, by rw [ho, h], rfl⟩) (fun b hb => by rw [hb]; exact hk)

theorem R.Outside.lift {m : M α} (h : m = .error .oob) : (R.lift m).Outside := fun o ho => by rw [ho, h]

theorem get_ok_or_oob (μ : Mapping) (p : Nat) : (∃ b, μ.get p = .ok b) ∨ μ.get p = .error .oob := by
  by_cases h : p < μ.bytes.length + μ.pad
  · exact .inl (μ.get_readable h)
  · exact .inr (μ.get_oob (by omega))

theorem getBytes_outside {μ : Mapping} : ∀ {k p : Nat}, 0 < k → μ.bytes.length + μ.pad < p + k → getBytes μ k p = .error .oob
  | 0, _, h, _ => absurd h (by decide)
  | k + 1, p, _, h => by
    rw [getBytes]
    rcases get_ok_or_oob μ p with ⟨b, hb⟩ | hb
    · rw [hb, ok_bind]
      by_cases hk : 0 < k
      · rw [getBytes_outside hk (by omega)]; rfl
      · exfalso
        have : k = 0 := by omega
        subst this
        rw [μ.get_oob (by omega)] at hb
        exact absurd hb (by simp)
    · rw [hb]; rfl

theorem rdLE_outside {μ : Mapping} {k p : Nat} (hk : 0 < k) (h : μ.mem.length < p + k) : rdLE μ k p = .error .oob := by
  rw [Mapping.mem_length] at h
  rw [rdLE, getBytes_outside hk h]
  rfl

theorem chunk_cover {n T i : Nat} (hT : 0 < T) (hi : i < n) : ∃ tid, tid < T ∧ i ∈ List.range' (chunkStart n T tid) (chunkLen n T tid) := by
  by_cases hl : i < (T - 1) * (n / T)
  · have hq : 0 < n / T := by
      rcases Nat.eq_zero_or_pos (n / T) with h | h
      · rw [h] at hl; omega
      · exact h
    have h1 : i / (n / T) < T - 1 := (Nat.div_lt_iff_lt_mul hq).2 hl
    refine ⟨i / (n / T), by omega, ?_⟩
    rw [List.mem_range'_1, chunkStart, chunkLen, if_neg (by omega)]
    have h2 := Nat.div_add_mod i (n / T)
    have h3 := Nat.mod_lt i hq
    rw [Nat.mul_comm] at h2
    omega
  · refine ⟨T - 1, by omega, ?_⟩
    rw [List.mem_range'_1, chunkStart, chunkLen, if_pos rfl, Nat.mul_comm (n / T)]
    omega

theorem chunkActs_read (μ : Mapping) (base n T p tid : Nat) : (∃ b, chunkActs (fun i => μ.get (p + i)) base n T tid = .ok b) ∨
    chunkActs (fun i => μ.get (p + i)) base n T tid = .error .oob := by
  rcases mapE_total (f := fun i => μ.get (p + i)) (l := List.range' (chunkStart n T tid) (chunkLen n T tid)) (fun a _ => get_ok_or_oob μ _) with ⟨b, hb⟩ | hb
  · left; exact ⟨_, by rw [chunkActs, hb, ok_bind]⟩
  · right; rw [chunkActs, hb]; rfl

theorem readArr_outside {μ : Mapping} {p T k n bytes : Nat} (hT : 0 < T) (hb : 0 < bytes) (h : μ.mem.length < p + bytes) (dec : List Byte → α) :
    (readArr T μ k dec n bytes p).Outside := by
  rw [Mapping.mem_length] at h
  unfold readArr
  refine R.Outside.after (Q := fun _ => True) (by rintro o ⟨a, _, rfl⟩; exact ⟨_, rfl, trivial⟩) (fun junk _ => R.Outside.bind_left ?_)
  unfold parRead
  refine R.Outside.bind_left (R.Outside.lift (mapE_error (fun tid _ => chunkActs_read ..) ?_))
  obtain ⟨tid, h1, h2⟩ := chunk_cover hT (show bytes - 1 < bytes by omega)
  refine ⟨tid, List.mem_range.2 h1, ?_⟩
  rw [chunkActs, mapE_error (fun a _ => get_ok_or_oob μ _) ⟨_, h2, μ.get_oob (by omega)⟩]
  rfl

theorem readWeights_outside {μ : Mapping} {p T : Nat} {wgt : Bool} {cw : Codec W} {m : Nat} (hT : 0 < T) (hp : p ≤ μ.mem.length)
    (h : μ.mem.length < p + weightSize wgt cw m) : (readWeights T μ wgt cw m p).Outside := by
  unfold readWeights
  rw [if_pos (by omega)]
  exact readArr_outside hT (by omega) h cw.dec

/-! ## COO -/

/-- Where a COO file with the sizes `lb`, `ob` ends, going by the `m` in its header. -/
def cooEndM (lb ob : Nat) (wgt : Bool) (cw : Codec W) (mem : List Byte) : Nat :=
  13 + 3 * lb + ob + 2 * (lb * decLE (fld mem (13 + 3 * lb) ob)) + weightSize wgt cw (decLE (fld mem (13 + 3 * lb) ob))

theorem readBinCoo_outside {T : Nat} (hT : 0 < T) (lb ob : Byte) {wgt : Bool} (cw : Codec W) {μ : Mapping} {rest : List Byte}
    (hb : μ.bytes = cooMagic ++ lb :: ob :: rest) (hm : μ.mem.length < cooEndM lb.toNat ob.toNat wgt cw μ.mem) :
    (readBinCoo T lb.toNat ob.toNat wgt cw μ 0).Outside := by
  obtain ⟨e1, e2⟩ := hdr_bytes hb
  have hmg : HasAt μ 0 cooMagic := hasAt_zero (t := lb :: ob :: rest) hb (by simp)
  have l11 : cooMagic.length = 11 := by decide
  have hlen : 13 ≤ μ.mem.length := by
    rw [Mapping.mem_length, hb, List.length_append, l11]
    simp only [List.length_cons]; omega
  rw [l11] at e1 e2
  unfold readBinCoo
  refine R.Outside.step (rdStr_good hmg) ?_
  rw [l11]
  refine R.Outside.step (rdByte (by rw [Nat.zero_add]; exact e1)) (R.Outside.step (rdByte (by rw [Nat.zero_add]; exact e2)) ?_)
  refine R.Outside.step (a := ()) (if_neg (fun h => h rfl)) (R.Outside.step (a := ()) (if_neg (fun h => h rfl)) ?_)
  simp only [Nat.zero_add, Nat.reduceAdd]
  have g2 : 13 + 3 * lb.toNat = 13 + lb.toNat + lb.toNat + lb.toNat := by omega
  unfold cooEndM at hm
  rw [g2] at hm
  by_cases c1 : μ.mem.length < 13 + lb.toNat
  · exact R.Outside.bind_left (R.Outside.lift (rdLE_outside (by omega) c1))
  refine R.Outside.step (rdLE_slice (by omega)) ?_
  dsimp only
  by_cases c2 : μ.mem.length < 13 + lb.toNat + lb.toNat
  · exact R.Outside.bind_left (R.Outside.lift (rdLE_outside (by omega) c2))
  refine R.Outside.step (rdLE_slice (by omega)) ?_
  dsimp only
  by_cases c3 : μ.mem.length < 13 + lb.toNat + lb.toNat + lb.toNat
  · exact R.Outside.bind_left (R.Outside.lift (rdLE_outside (by omega) c3))
  refine R.Outside.step (rdLE_slice (by omega)) ?_
  dsimp only
  by_cases c4 : μ.mem.length < 13 + lb.toNat + lb.toNat + lb.toNat + ob.toNat
  · exact R.Outside.bind_left (R.Outside.lift (rdLE_outside (by omega) c4))
  refine R.Outside.step (rdLE_slice (by omega)) ?_
  dsimp only
  generalize decLE (fld μ.mem (13 + lb.toNat + lb.toNat + lb.toNat) ob.toNat) = m at *
  by_cases c5 : μ.mem.length < 13 + lb.toNat + lb.toNat + lb.toNat + ob.toNat + lb.toNat * m
  · exact R.Outside.bind_left (readArr_outside hT (by omega) c5 decLE)
  refine R.Outside.after (readArr_slice hT (by omega) decLE) ?_
  rintro _ rfl
  dsimp only
  by_cases c6 : μ.mem.length < 13 + lb.toNat + lb.toNat + lb.toNat + ob.toNat + lb.toNat * m + lb.toNat * m
  · exact R.Outside.bind_left (readArr_outside hT (by omega) c6 decLE)
  refine R.Outside.after (readArr_slice hT (by omega) decLE) ?_
  rintro _ rfl
  dsimp only
  exact R.Outside.bind_left (readWeights_outside hT (by omega) (by omega))

/-! ## CSR -/

/-- Where a CSR file with the sizes `lb`, `ob` ends, going by the `n` and `m` in its header. -/
def csrEndM (lb ob : Nat) (wgt : Bool) (cw : Codec W) (mem : List Byte) : Nat :=
  13 + lb + ob + lb + lb + ob * succL lb (decLE (fld mem 13 lb)) + lb * decLE (fld mem (13 + lb) ob) + weightSize wgt cw (decLE (fld mem (13 + lb) ob))

theorem readBinCsr_outside {T : Nat} (hT : 0 < T) (lb ob : Byte) {wgt : Bool} (cw : Codec W) {μ : Mapping} {rest : List Byte}
    (hb : μ.bytes = csrMagic ++ lb :: ob :: rest) (hm : μ.mem.length < csrEndM lb.toNat ob.toNat wgt cw μ.mem) :
    (readBinCsr T lb.toNat ob.toNat wgt cw μ 0).Outside := by
  obtain ⟨e1, e2⟩ := hdr_bytes hb
  have hmg : HasAt μ 0 csrMagic := hasAt_zero (t := lb :: ob :: rest) hb (by simp)
  have l11 : csrMagic.length = 11 := by decide
  have hlen : 13 ≤ μ.mem.length := by
    rw [Mapping.mem_length, hb, List.length_append, l11]
    simp only [List.length_cons]; omega
  rw [l11] at e1 e2
  unfold readBinCsr
  refine R.Outside.step (rdStr_good hmg) ?_
  rw [l11]
  refine R.Outside.step (rdByte (by rw [Nat.zero_add]; exact e1)) (R.Outside.step (rdByte (by rw [Nat.zero_add]; exact e2)) ?_)
  refine R.Outside.step (a := ()) (if_neg (fun h => h rfl)) (R.Outside.step (a := ()) (if_neg (fun h => h rfl)) ?_)
  simp only [Nat.zero_add, Nat.reduceAdd]
  unfold csrEndM at hm
  by_cases c1 : μ.mem.length < 13 + lb.toNat
  · exact R.Outside.bind_left (R.Outside.lift (rdLE_outside (by omega) c1))
  refine R.Outside.step (rdLE_slice (by omega)) ?_
  dsimp only
  by_cases c2 : μ.mem.length < 13 + lb.toNat + ob.toNat
  · exact R.Outside.bind_left (R.Outside.lift (rdLE_outside (by omega) c2))
  refine R.Outside.step (rdLE_slice (by omega)) ?_
  dsimp only
  by_cases c3 : μ.mem.length < 13 + lb.toNat + ob.toNat + lb.toNat
  · exact R.Outside.bind_left (R.Outside.lift (rdLE_outside (by omega) c3))
  refine R.Outside.step (rdLE_slice (by omega)) ?_
  dsimp only
  by_cases c4 : μ.mem.length < 13 + lb.toNat + ob.toNat + lb.toNat + lb.toNat
  · exact R.Outside.bind_left (R.Outside.lift (rdLE_outside (by omega) c4))
  refine R.Outside.step (rdLE_slice (by omega)) ?_
  dsimp only
  generalize decLE (fld μ.mem (13 + lb.toNat) ob.toNat) = m at *
  generalize succL lb.toNat (decLE (fld μ.mem 13 lb.toNat)) = n at *
  by_cases c5 : μ.mem.length < 13 + lb.toNat + ob.toNat + lb.toNat + lb.toNat + ob.toNat * n
  · exact R.Outside.bind_left (readArr_outside hT (by omega) c5 decLE)
  refine R.Outside.after (readArr_slice hT (by omega) decLE) ?_
  rintro _ rfl
  dsimp only
  by_cases c6 : μ.mem.length < 13 + lb.toNat + ob.toNat + lb.toNat + lb.toNat + ob.toNat * n + lb.toNat * m
  · exact R.Outside.bind_left (readArr_outside hT (by omega) c6 decLE)
  refine R.Outside.after (readArr_slice hT (by omega) decLE) ?_
  rintro _ rfl
  dsimp only
  exact R.Outside.bind_left (readWeights_outside hT (by omega) (by omega))

/-! ## Tensor -/

/-- Where an unweighted Tensor file with the sizes `lb`, `ob` ends, going by the order and `m` in its header. -/
def tensorEndM (lb ob : Nat) (wgt : Bool) (cw : Codec W) (mem : List Byte) : Nat :=
  let q := 15 + if wgt then 1 else 0
  q + ob + ob + lb * decLE (fld mem q ob) * decLE (fld mem (q + ob) ob) + weightSize wgt cw (decLE (fld mem (q + ob) ob))

/-- The sizes of a Tensor file. -/
def tensorSizes (wgt : Bool) (cw : Codec W) (lb ob : Byte) : List Byte :=
  lb :: ob :: if wgt then [UInt8.ofNat cw.size] else []

theorem tensor_wsize {wgt : Bool} {cw : Codec W} (hcw : cw.size < 256) {lb ob : Byte} {μ : Mapping} {rest : List Byte}
    (hb : μ.bytes = tensorMagic ++ tensorSizes wgt cw lb ob ++ rest) :
    (if wgt then (rdLE μ 1 15 >>= fun (ws, p) => sizeCheck ws cw.size >>= fun _ => .ok p) else .ok 15) = .ok (15 + if wgt then 1 else 0) := by
  cases wgt with
  | false => rfl
  | true =>
    have e : μ.bytes[15]? = some (UInt8.ofNat cw.size) := by
      have : tensorMagic.length = 13 := by decide
      rw [hb, tensorSizes, List.append_assoc, List.getElem?_append_right (by omega), this]
      rfl
    have hs : (UInt8.ofNat cw.size).toNat = cw.size := by
      rw [UInt8.toNat_ofNat']; exact Nat.mod_eq_of_lt hcw
    rw [if_pos rfl, rdByte e, ok_bind, hs]
    simp [sizeCheck]

theorem readBinTensor_hdr {T : Nat} (lb ob : Byte) {wgt : Bool} (cw : Codec W) (hcw : cw.size < 256) {μ : Mapping} {rest : List Byte}
    (hb : μ.bytes = tensorMagic ++ tensorSizes wgt cw lb ob ++ rest) {Q : R (Tensor W) → Prop} 
    (hQ : ∀ {α : Type} (m : M α) (a : α) (k : α → R (Tensor W)), m = .ok a → Q (k a) → Q (R.lift m >>= k))
    (h : Q (do
      let (order, p) ← R.lift (rdLE μ ob.toNat (15 + if wgt then 1 else 0))
      let (m, p) ← R.lift (rdLE μ ob.toNat p)
      let (c, p) ← readArr T μ lb.toNat decLE (inOrd (8 * ob.toNat) (order * m)) (lb.toNat * order * m) p
      let (w, _) ← readWeights T μ wgt cw m p
      pure { c := c, w := w, order := order, m := m })) : Q (readBinTensor T lb.toNat ob.toNat wgt cw μ 0) := by
  have hb' : μ.bytes = tensorMagic ++ lb :: ob :: ((if wgt then [UInt8.ofNat cw.size] else []) ++ rest) := by
    rw [hb, tensorSizes, List.append_assoc]; rfl
  obtain ⟨e1, e2⟩ := hdr_bytes hb'
  have hmg : HasAt μ 0 tensorMagic := hasAt_zero hb' (by simp)
  have l13 : tensorMagic.length = 13 := by decide
  rw [l13] at e1 e2
  unfold readBinTensor
  refine hQ _ _ _ (rdStr_good hmg) ?_
  rw [l13]
  refine hQ _ _ _ (rdByte (by rw [Nat.zero_add]; exact e1)) (hQ _ _ _ (rdByte (by rw [Nat.zero_add]; exact e2)) ?_)
  refine hQ _ () _ (if_neg (fun h => h rfl)) (hQ _ () _ (if_neg (fun h => h rfl)) ?_)
  simp only [Nat.zero_add, Nat.reduceAdd]
  exact hQ _ _ _ (tensor_wsize hcw hb) h

theorem readBinTensor_outside {T : Nat} (hT : 0 < T) (lb ob : Byte) {wgt : Bool} (cw : Codec W) (hcw : cw.size < 256) {μ : Mapping} {rest : List Byte}
    (hb : μ.bytes = tensorMagic ++ tensorSizes wgt cw lb ob ++ rest)
    (hm : μ.mem.length < tensorEndM lb.toNat ob.toNat wgt cw μ.mem)
    (hov : ob.toNat < 4 ∨
      decLE (fld μ.mem (15 + if wgt then 1 else 0) ob.toNat) * decLE (fld μ.mem (15 + (if wgt then 1 else 0) + ob.toNat) ob.toNat) < 256 ^ ob.toNat) :
    (readBinTensor T lb.toNat ob.toNat wgt cw μ 0).Outside := by
  refine readBinTensor_hdr lb ob cw hcw hb (fun m a k h hk => R.Outside.step h hk) ?_
  have hlen : (15 + if wgt then 1 else 0) ≤ μ.mem.length := by
    rw [Mapping.mem_length, hb, List.length_append, List.length_append, show tensorMagic.length = 13 by decide]
    cases wgt <;> simp [tensorSizes] <;> omega
  unfold tensorEndM at hm
  simp only at hm
  generalize (15 + if wgt then 1 else 0) = q at *
  by_cases c1 : μ.mem.length < q + ob.toNat
  · exact R.Outside.bind_left (R.Outside.lift (rdLE_outside (by omega) c1))
  refine R.Outside.step (rdLE_slice (by omega)) ?_
  dsimp only
  by_cases c2 : μ.mem.length < q + ob.toNat + ob.toNat
  · exact R.Outside.bind_left (R.Outside.lift (rdLE_outside (by omega) c2))
  refine R.Outside.step (rdLE_slice (by omega)) ?_
  dsimp only
  generalize decLE (fld μ.mem q ob.toNat) = o at *
  generalize decLE (fld μ.mem (q + ob.toNat) ob.toNat) = m at *
  by_cases c5 : μ.mem.length < q + ob.toNat + ob.toNat + lb.toNat * o * m
  · exact R.Outside.bind_left (readArr_outside hT (by omega) c5 decLE)
  refine R.Outside.after (readArr_slice' hT (by rw [inOrd_fit hov, Nat.mul_assoc]) (by omega) decLE) ?_
  rintro _ rfl
  dsimp only
  exact R.Outside.bind_left (readWeights_outside hT (by omega) (by omega))

theorem readBinTensor_inside {T : Nat} (hT : 0 < T) (lb ob : Byte) {wgt : Bool} (cw : Codec W) (hcw : cw.size < 256) {μ : Mapping} {rest : List Byte}
    (hb : μ.bytes = tensorMagic ++ tensorSizes wgt cw lb ob ++ rest)
    (hm : tensorEndM lb.toNat ob.toNat wgt cw μ.mem ≤ μ.mem.length)
    (hov : ob.toNat < 4 ∨
      decLE (fld μ.mem (15 + if wgt then 1 else 0) ob.toNat) * decLE (fld μ.mem (15 + (if wgt then 1 else 0) + ob.toNat) ob.toNat) < 256 ^ ob.toNat) :
    (readBinTensor T lb.toNat ob.toNat wgt cw μ 0).All (fun r => r = tensorIn lb.toNat ob.toNat wgt cw μ.mem) := by
  refine readBinTensor_hdr lb ob cw hcw hb (Q := fun p => p.All (fun r => r = tensorIn lb.toNat ob.toNat wgt cw μ.mem)) (fun m a k h hk => R.All.step h hk) ?_
  unfold tensorEndM at hm
  unfold tensorIn
  simp only at hm ⊢
  generalize (15 + if wgt then 1 else 0) = q at *
  refine R.All.step (rdLE_slice (by omega)) (R.All.step (rdLE_slice (by omega)) ?_)
  dsimp only
  generalize decLE (fld μ.mem q ob.toNat) = o at *
  generalize decLE (fld μ.mem (q + ob.toNat) ob.toNat) = m at *
  refine R.All.same (readArr_slice' hT (by rw [inOrd_fit hov, Nat.mul_assoc]) (by omega) decLE) ?_
  refine R.All.same (readWeights_slice hT (by omega)) ?_
  exact R.All.pure rfl

/-! ## arrays that are too small -/

theorem run_store_outside {α : Type} : ∀ (l : List (Nat × α)) (a : List α), (∃ q ∈ l, a.length ≤ q.1) → runActs storeAct l a = .error .oob
  | [], _, ⟨_, h, _⟩ => by simp at h
  | q :: l, a, h => by
    rw [runActs]
    by_cases hq : q.1 < a.length
    · rw [storeAct, store, if_pos hq, ok_bind]
      refine run_store_outside l _ ?_
      obtain ⟨r, hr, hr'⟩ := h
      rcases List.mem_cons.1 hr with rfl | hr
      · omega
      · exact ⟨r, hr, by rw [List.length_set]; exact hr'⟩
    · rw [storeAct, store, if_neg hq]; rfl

theorem readArr_overflow {μ : Mapping} {p T k n bytes : Nat} (hT : 0 < T) (h : k * n < bytes) (dec : List Byte → α) :
    (readArr T μ k dec n bytes p).Outside := by
  by_cases hl : μ.mem.length < p + bytes
  · exact readArr_outside hT (by omega) hl dec
  unfold readArr
  refine R.Outside.after (Q := fun _ => True) (by rintro o ⟨a, _, rfl⟩; exact ⟨_, rfl, trivial⟩) (fun junk _ => R.Outside.bind_left ?_)
  unfold parRead
  have hb : (fld μ.mem p bytes).length = bytes := fld_length (by omega)
  have hc := chunks_ok (v := fun i => μ.get (p + i)) (bs := fld μ.mem p bytes) (fun i hi => by
    rw [hb] at hi
    rw [μ.get_load, load, load, fld_get, if_pos hi]) 0 bytes T hb
  refine R.Outside.step hc (R.Outside.bind_left ?_)
  rintro o ⟨sched, hs, rfl⟩
  have hp := hs.perm
  rw [chunks_all (fld μ.mem p bytes) 0 bytes T hT hb] at hp
  refine run_store_outside sched _ ⟨(k * n, (fld μ.mem p bytes)[k * n]'(by omega)), hp.mem_iff.2 (mem_blockActs.2 ⟨k * n, by simp, by simp⟩), ?_⟩
  rw [alloc_length]
  exact Nat.le_refl _

/-! ## what is in the bytes -/

theorem num_eq (mem : List Byte) (p k : Nat) : num mem p k = decLE (fld mem p k) := by
  unfold num fld
  generalize (mem.drop p).take k = l
  induction l with
  | nil => rfl
  | cons b l ih => rw [List.foldr_cons, decLE, ih]

theorem fld_fld (mem : List Byte) (p k n i : Nat) (hi : i < n) : ((fld mem p (k * n)).drop (i * k)).take k = (mem.drop (p + k * i)).take k := by
  have h : i * k + k ≤ k * n := by
    have := Nat.mul_le_mul_left k (Nat.succ_le_of_lt hi)
    rw [Nat.mul_succ] at this
    rw [Nat.mul_comm i]; omega
  rw [fld, List.drop_take, List.drop_drop, List.take_take, Nat.min_eq_left (by omega), Nat.mul_comm k i]

theorem nums_eq (mem : List Byte) (p k n : Nat) : nums mem p k n = decArr k decLE n (fld mem p (k * n)) := by
  unfold nums decArr
  refine List.map_congr_left (fun i hi => ?_)
  rw [fld_fld _ _ _ _ _ (List.mem_range.1 hi), num_eq, fld]

theorem weightsAt_eq (wgt : Bool) (cw : Codec W) (mem : List Byte) (p m : Nat) :
    weightsAt wgt cw mem p m = if wgt then decArr cw.size cw.dec m (fld mem p (cw.size * m)) else [] := by
  unfold weightsAt decArr
  split
  · refine List.map_congr_left (fun i hi => ?_)
    rw [fld_fld _ _ _ _ _ (List.mem_range.1 hi)]
  · rfl

theorem cooEnd_eq (lb ob : Nat) (wgt : Bool) (cw : Codec W) (mem : List Byte) : cooEnd lb ob wgt cw mem = cooEndM lb ob wgt cw mem := by
  simp only [cooEnd, cooEndM, cooM, num_eq]; rfl

theorem cooAt_eq (lb ob : Nat) (wgt : Bool) (cw : Codec W) (mem : List Byte) : cooAt lb ob wgt cw mem = cooIn lb ob wgt cw mem := by
  simp only [cooAt, cooIn, cooM, nums_eq, weightsAt_eq, num_eq]
  rw [Nat.two_mul (lb * _), Nat.add_assoc]
  simp only [Nat.add_assoc]

theorem csrOffsets_eq (lb : Nat) (mem : List Byte) : csrOffsets lb mem = succL lb (decLE (fld mem 13 lb)) := by
  rw [csrOffsets, succL, num_eq]

theorem csrEnd_eq (lb ob : Nat) (wgt : Bool) (cw : Codec W) (mem : List Byte) : csrEnd lb ob wgt cw mem = csrEndM lb ob wgt cw mem := by
  simp only [csrEnd, csrEndM, csrOffsets_eq, num_eq, weightsLen, weightSize]
  omega

theorem csrAt_eq (lb ob : Nat) (wgt : Bool) (cw : Codec W) (mem : List Byte) : csrAt lb ob wgt cw mem = csrIn lb ob wgt cw mem := by
  have h : 13 + 3 * lb + ob = 13 + lb + ob + lb + lb := by omega
  have h' : 13 + 2 * lb + ob = 13 + lb + ob + lb := by omega
  simp only [csrAt, csrIn, csrOffsets_eq, nums_eq, weightsAt_eq, num_eq, h, h']

theorem tensorEnd_eq (lb ob : Nat) (wgt : Bool) (cw : Codec W) (mem : List Byte) : tensorEnd lb ob wgt cw mem = tensorEndM lb ob wgt cw mem := by
  simp only [tensorEnd, tensorEndM, tensorHdr, tensorOrd, tensorM, num_eq, weightsLen, weightSize, Nat.mul_assoc]
  omega

theorem tensorAt_eq {lb ob : Nat} {wgt : Bool} (cw : Codec W) {mem : List Byte} (hov : ob < 4 ∨ tensorOrd ob wgt mem * tensorM ob wgt mem < 256 ^ ob) :
    tensorAt lb ob wgt cw mem = tensorIn lb ob wgt cw mem := by
  have h : ∀ q, q + 2 * ob = q + ob + ob := fun q => by omega
  have hov' := hov
  simp only [tensorOrd, tensorM, num_eq] at hov'
  simp only [tensorAt, tensorIn, tensorHdr, tensorOrd, tensorM, nums_eq, weightsAt_eq, num_eq, h, inOrd_fit hov', Nat.mul_assoc]

/-! ## the properties -/

/-- **C43**, what holds for every file that begins with the magic of a COO and the sizes of the types of the COO it is loaded into:
if the header says that the file ends inside of the mapping, the load gives what is in the mapped bytes, else every execution reads
outside of the mapping. -/
theorem C43_coo_exact (T : Nat) (hT : 0 < T) (lb ob : Byte) (wgt : Bool) (cw : Codec W) (rest : List Byte) (pad : Nat) :
    let file := str "PIGO-COO-v1" ++ lb :: ob :: rest
    (cooEnd lb.toNat ob.toNat wgt cw (mapped file pad) ≤ file.length + pad →
      (readBinCoo T lb.toNat ob.toNat wgt cw ⟨file, pad⟩ 0).All (fun r => r.1 = cooAt lb.toNat ob.toNat wgt cw (mapped file pad))) ∧
    (file.length + pad < cooEnd lb.toNat ob.toNat wgt cw (mapped file pad) →
      (readBinCoo T lb.toNat ob.toNat wgt cw ⟨file, pad⟩ 0).Out (.error .oob) ∧
      ∀ out, (readBinCoo T lb.toNat ob.toNat wgt cw ⟨file, pad⟩ 0).Out out → out = .error .oob) := by
  intro file
  have hmem : (Mapping.mem ⟨file, pad⟩).length = file.length + pad := Mapping.mem_length _
  rw [show mapped file pad = Mapping.mem ⟨file, pad⟩ from rfl, cooEnd_eq, cooAt_eq, ← hmem]
  refine ⟨fun h => readBinCoo_slice hT lb ob cw rfl h, fun h => ?_⟩
  have ho := readBinCoo_outside hT lb ob cw (μ := ⟨file, pad⟩) rfl h
  obtain ⟨o, h1⟩ := readBinCoo_any T lb.toNat ob.toNat wgt cw ⟨file, pad⟩ 0
  exact ⟨ho o h1 ▸ h1, ho⟩

/-- **C43**, CSR. -/
theorem C43_csr_exact (T : Nat) (hT : 0 < T) (lb ob : Byte) (wgt : Bool) (cw : Codec W) (rest : List Byte) (pad : Nat) :
    let file := str "PIGO-CSR-v2" ++ lb :: ob :: rest
    (csrEnd lb.toNat ob.toNat wgt cw (mapped file pad) ≤ file.length + pad →
      (readBinCsr T lb.toNat ob.toNat wgt cw ⟨file, pad⟩ 0).All (fun r => r.1 = csrAt lb.toNat ob.toNat wgt cw (mapped file pad))) ∧
    (file.length + pad < csrEnd lb.toNat ob.toNat wgt cw (mapped file pad) →
      (readBinCsr T lb.toNat ob.toNat wgt cw ⟨file, pad⟩ 0).Out (.error .oob) ∧
      ∀ out, (readBinCsr T lb.toNat ob.toNat wgt cw ⟨file, pad⟩ 0).Out out → out = .error .oob) := by
  intro file
  have hmem : (Mapping.mem ⟨file, pad⟩).length = file.length + pad := Mapping.mem_length _
  rw [show mapped file pad = Mapping.mem ⟨file, pad⟩ from rfl, csrEnd_eq, csrAt_eq, ← hmem]
  refine ⟨fun h => readBinCsr_slice hT lb ob cw rfl rfl rfl h, fun h => ?_⟩
  have ho := readBinCsr_outside hT lb ob cw (μ := ⟨file, pad⟩) rfl h
  obtain ⟨o, h1⟩ := readBinCsr_any T lb.toNat ob.toNat wgt cw ⟨file, pad⟩ 0
  exact ⟨ho o h1 ▸ h1, ho⟩

/-- **C43**, Tensor: the array that is allocated also has to be large enough, `order * m` is computed in the ordinal type, in `int` if that has
fewer than 4 bytes.  (For 16-bit ordinals and a product of 2^31 or more that overflows, which is left out here.) -/
theorem C43_tensor_exact (T : Nat) (hT : 0 < T) (lb ob : Byte) (hlb : 0 < lb.toNat) (wgt : Bool) (cw : Codec W) (hcw : cw.size < 256) (rest : List Byte) (pad : Nat) :
    let file := str "PIGO-Tensor-2" ++ (lb :: ob :: if wgt then [UInt8.ofNat cw.size] else []) ++ rest
    let all := tensorOrd ob.toNat wgt (mapped file pad) * tensorM ob.toNat wgt (mapped file pad)
    (((ob.toNat < 4 ∧ all < 2 ^ 31) ∨ all < 256 ^ ob.toNat) ∧ tensorEnd lb.toNat ob.toNat wgt cw (mapped file pad) ≤ file.length + pad →
      (readBinTensor T lb.toNat ob.toNat wgt cw ⟨file, pad⟩ 0).All (fun r => r = tensorAt lb.toNat ob.toNat wgt cw (mapped file pad))) ∧
    ((4 ≤ ob.toNat ∧ 256 ^ ob.toNat ≤ all) ∨
        ((4 ≤ ob.toNat ∨ all < 2 ^ 31) ∧ file.length + pad < tensorEnd lb.toNat ob.toNat wgt cw (mapped file pad)) →
      (readBinTensor T lb.toNat ob.toNat wgt cw ⟨file, pad⟩ 0).Out (.error .oob) ∧
      ∀ out, (readBinTensor T lb.toNat ob.toNat wgt cw ⟨file, pad⟩ 0).Out out → out = .error .oob) := by
  intro file all
  have hmem : (Mapping.mem ⟨file, pad⟩).length = file.length + pad := Mapping.mem_length _
  have hall : all = decLE (fld (Mapping.mem ⟨file, pad⟩) (15 + if wgt then 1 else 0) ob.toNat) *
      decLE (fld (Mapping.mem ⟨file, pad⟩) (15 + (if wgt then 1 else 0) + ob.toNat) ob.toNat) := by
    show tensorOrd _ _ _ * tensorM _ _ _ = _
    rw [tensorOrd, tensorM, num_eq, num_eq]; rfl
  rw [show mapped file pad = Mapping.mem ⟨file, pad⟩ from rfl, tensorEnd_eq, ← hmem]
  refine ⟨fun h => ?_, fun h => ?_⟩
  · rw [show tensorAt lb.toNat ob.toNat wgt cw (Mapping.mem ⟨file, pad⟩) = _ from tensorAt_eq cw (h.1.imp_left And.left)]
    exact readBinTensor_inside hT lb ob cw hcw (μ := ⟨file, pad⟩) rfl h.2 (hall ▸ h.1.imp_left And.left)
  · have ho : (readBinTensor T lb.toNat ob.toNat wgt cw ⟨file, pad⟩ 0).Outside := by
      by_cases hov : ob.toNat < 4 ∨ all < 256 ^ ob.toNat
      · exact readBinTensor_outside hT lb ob cw hcw (μ := ⟨file, pad⟩) rfl (h.resolve_left (by omega)).2 (hall ▸ hov)
      · refine readBinTensor_hdr lb ob cw hcw (μ := ⟨file, pad⟩) rfl (fun m a k h hk => R.Outside.step h hk) ?_
        rw [hall] at hov
        have hlen : (15 + if wgt then 1 else 0) ≤ (Mapping.mem ⟨file, pad⟩).length := by
          rw [hmem, List.length_append, List.length_append, show (str "PIGO-Tensor-2").length = 13 by decide]
          cases wgt <;> simp <;> omega
        generalize (15 + if wgt then 1 else 0) = q at *
        generalize Mapping.mk file pad = μ at *
        by_cases c1 : μ.mem.length < q + ob.toNat
        · exact R.Outside.bind_left (R.Outside.lift (rdLE_outside (by omega) c1))
        refine R.Outside.step (rdLE_slice (by omega)) ?_
        dsimp only
        by_cases c2 : μ.mem.length < q + ob.toNat + ob.toNat
        · exact R.Outside.bind_left (R.Outside.lift (rdLE_outside (by omega) c2))
        refine R.Outside.step (rdLE_slice (by omega)) ?_
        dsimp only
        refine R.Outside.bind_left (readArr_overflow hT ?_ decLE)
        rw [Nat.mul_assoc]
        exact Nat.mul_lt_mul_of_pos_left (inOrd_wrap (by omega) (by omega)) hlb
    obtain ⟨o, h1⟩ := readBinTensor_any T lb.toNat ob.toNat wgt cw ⟨file, pad⟩ 0
    exact ⟨ho o h1 ▸ h1, ho⟩

example := (C43_coo_exact 3 (by decide) 4 8 true (codecNat 1 (by decide)) (le 4 1 ++ le 4 2 ++ le 4 3 ++ le 8 1 ++ le 4 0 ++ le 4 1 ++ [7]) 5).1 (by decide)
example := (C43_coo_exact 3 (by decide) 4 8 true (codecNat 1 (by decide)) (le 4 1 ++ le 4 2 ++ le 4 3 ++ le 8 2 ++ le 4 0 ++ le 4 1 ++ [7]) 5).2 (by decide)
example := (C43_csr_exact 3 (by decide) 4 8 false (codecNat 1 (by decide)) (le 4 1 ++ le 8 1 ++ le 4 1 ++ le 4 1 ++ le 8 0 ++ le 8 1) 5).1 (by decide)
example := (C43_tensor_exact 3 (by decide) 4 4 (by decide) true (codecNat 8 (by decide)) (by decide) (le 4 65536 ++ le 4 65536) 5).2 (.inl (by decide))

/-- C43 is false: a COO or CSR file that is cut somewhere after its header is read outside of the mapping, by every execution, if more is
missing than there is left of the page. -/
theorem C43_cut_violated (T lb ob : Nat) (hT : 0 < T) (hlb : lb < 256) (hob : ob < 256) (wgt : Bool) (cw : Codec W) (k pad : Nat) (hk : 13 + 3 * lb + ob ≤ k) :
    (∀ c : Coo W, FitsCoo lb ob wgt cw c → k + pad < (cooFile lb ob wgt cw c).length →
      ∀ out, (readBinCoo T lb ob wgt cw ⟨(cooFile lb ob wgt cw c).take k, pad⟩ 0).Out out → out = .error .oob) ∧
    (∀ c : Csr W, FitsCsr lb ob wgt cw c → k + pad < (csrFile lb ob wgt cw c).length →
      ∀ out, (readBinCsr T lb ob wgt cw ⟨(csrFile lb ob wgt cw c).take k, pad⟩ 0).Out out → out = .error .oob) := by
  obtain ⟨a, ha, ea⟩ := size_byte hlb
  obtain ⟨b, hb, eb⟩ := size_byte hob
  have key : ∀ {file pre post : List Byte} {v p w : Nat}, file = pre ++ (encLE w v ++ post) → pre.length = p → p + w ≤ k → k ≤ file.length → v < 256 ^ w →
      num (mapped (file.take k) pad) p w = v := by
    intro file pre post v p w he hp hw hl hv
    have : (file.take k) = pre ++ (encLE w v ++ post.take (k - (p + w))) := by
      rw [he, List.take_append, List.take_append, List.take_of_length_le (by omega), List.take_of_length_le (by rw [encLE_length]; omega), encLE_length, hp]
      congr 3; omega
    rw [num_eq, mapped, this, List.append_assoc, List.append_assoc, fld_part rfl hp (encLE_length ..), decLE_encLE hv]
  constructor
  · intro c h hlt
    have hlen := cooBytes_length cw h
    have l11 : cooMagic.length = 11 := by decide
    rw [← cooBytes_eq] at hlt ⊢
    have hm : cooM lb ob (mapped ((cooBytes lb ob wgt cw c).take k) pad) = c.m :=
      key (pre := cooMagic ++ encLE 1 lb ++ encLE 1 ob ++ encLE lb c.nrows ++ encLE lb c.ncols ++ encLE lb c.n)
        (by simp only [cooBytes, List.append_assoc]; rfl) (by simp [l11]; omega) hk (by omega) h.m
    have hshape : (cooBytes lb ob wgt cw c).take k = str "PIGO-COO-v1" ++ a :: b ::
        ((encLE lb c.nrows ++ encLE lb c.ncols ++ encLE lb c.n ++ encLE ob c.m ++ rawArr (encLE lb) c.x ++ rawArr (encLE lb) c.y ++
          (if wgt then rawArr cw.enc c.w else [])).take (k - 13)) := by
      have e : cooBytes lb ob wgt cw c = (cooMagic ++ [a] ++ [b]) ++ (encLE lb c.nrows ++ encLE lb c.ncols ++ encLE lb c.n ++ encLE ob c.m ++
          rawArr (encLE lb) c.x ++ rawArr (encLE lb) c.y ++ (if wgt then rawArr cw.enc c.w else [])) := by
        simp only [cooBytes, ea, eb, List.append_assoc]
      rw [e, List.take_append, List.take_of_length_le (by simp [l11]; omega)]
      rw [show (cooMagic ++ [a] ++ [b]).length = 13 by simp [l11]]
      simp only [cooMagic, List.append_assoc, List.cons_append, List.nil_append]
    obtain ⟨rest, hshape⟩ : ∃ rest, (cooBytes lb ob wgt cw c).take k = str "PIGO-COO-v1" ++ a :: b :: rest := ⟨_, hshape⟩
    have h1 := (C43_coo_exact T hT a b wgt cw rest pad).2
    rw [← hshape, ha, hb] at h1
    refine (h1 ?_).2
    rw [List.length_take, Nat.min_eq_left (by omega), cooEnd, hm]
    rw [hlen] at hlt
    simp only [cooSaveSize, l11, weightSize] at hlt
    simp only [weightsLen]
    omega
  · intro c h hlt
    have hlen := csrBytes_length cw h
    have l11 : csrMagic.length = 11 := by decide
    rw [← csrBytes_eq] at hlt ⊢
    have hn : num (mapped ((csrBytes lb ob wgt cw c).take k) pad) 13 lb = c.n :=
      key (pre := csrMagic ++ encLE 1 lb ++ encLE 1 ob) (by simp only [csrBytes, List.append_assoc]; rfl) (by simp [l11]) (by omega) (by omega) h.n
    have hm : num (mapped ((csrBytes lb ob wgt cw c).take k) pad) (13 + lb) ob = c.m :=
      key (pre := csrMagic ++ encLE 1 lb ++ encLE 1 ob ++ encLE lb c.n) (by simp only [csrBytes, List.append_assoc]; rfl) (by simp [l11]; omega) (by omega) (by omega) h.m
    have hshape : (csrBytes lb ob wgt cw c).take k = str "PIGO-CSR-v2" ++ a :: b ::
        ((encLE lb c.n ++ encLE ob c.m ++ encLE lb c.nrows ++ encLE lb c.ncols ++ rawArr (encLE ob) c.offsets ++ rawArr (encLE lb) c.endpoints ++
          (if wgt then rawArr cw.enc c.weights else [])).take (k - 13)) := by
      have e : csrBytes lb ob wgt cw c = (csrMagic ++ [a] ++ [b]) ++ (encLE lb c.n ++ encLE ob c.m ++ encLE lb c.nrows ++ encLE lb c.ncols ++
          rawArr (encLE ob) c.offsets ++ rawArr (encLE lb) c.endpoints ++ (if wgt then rawArr cw.enc c.weights else [])) := by
        simp only [csrBytes, ea, eb, List.append_assoc]
      rw [e, List.take_append, List.take_of_length_le (by simp [l11]; omega)]
      rw [show (csrMagic ++ [a] ++ [b]).length = 13 by simp [l11]]
      simp only [csrMagic, List.append_assoc, List.cons_append, List.nil_append]
    obtain ⟨rest, hshape⟩ : ∃ rest, (csrBytes lb ob wgt cw c).take k = str "PIGO-CSR-v2" ++ a :: b :: rest := ⟨_, hshape⟩
    have h1 := (C43_csr_exact T hT a b wgt cw rest pad).2
    rw [← hshape, ha, hb] at h1
    refine (h1 ?_).2
    rw [List.length_take, Nat.min_eq_left (by omega), csrEnd, csrOffsets_eq, ← num_eq, hm, hn, succL_eq h.room]
    rw [hlen] at hlt
    simp only [csrSaveSize, l11, weightSize, succL_eq h.room] at hlt
    simp only [weightsLen]
    omega

example := (C43_cut_violated 3 4 8 (by decide) (by decide) (by decide) true (codecNat 1 (by decide)) 40 2 (by decide)).2 binCsr binCsr_fits (by decide)

/-- C89, COO without entries: an interrupted save can leave a file that is read outside of the mapping, by every execution. (The last byte
of the new file is a one, and it is part of the `m` in the header.) -/
theorem C89_empty_coo_violated (T T' lb ob : Nat) (hT : 0 < T) (hT' : 0 < T') (hlb : 0 < lb ∧ lb < 256) (hob : 0 < ob ∧ ob < 256) (wgt : Bool) (cw : Codec W)
    (old : List Byte) (c : Coo W) (h : FitsCoo lb ob wgt cw c) (hm : c.m = 0) :
    ∃ s, (saveCooO old T lb ob wgt cw c).seen s ∧ ∀ pad, pad < 2 * (lb * 256 ^ (ob - 1)) →
      ∀ out, (readBinCoo T' lb ob wgt cw ⟨s, pad⟩ 0).Out out → out = .error .oob := by
  have hlen := cooBytes_length cw h
  have l11 : cooMagic.length = 11 := by decide
  obtain ⟨a, ha, ea⟩ := size_byte hlb.2
  obtain ⟨b, hb, eb⟩ := size_byte hob.2
  have hN : cooSaveSize lb ob wgt cw c = 13 + 3 * lb + ob := by
    simp only [cooSaveSize, l11, hm, weightSize, Nat.mul_zero]
    split <;> omega
  rw [hN] at hlen
  have hs := (C89_every_prefix old T lb ob hT wgt cw).1 c h (13 + 3 * lb) (by rw [← cooBytes_eq]; omega)
  rw [← cooBytes_eq, hlen] at hs
  have hpre : (cooBytes lb ob wgt cw c).take (13 + 3 * lb) = cooMagic ++ [a] ++ [b] ++ encLE lb c.nrows ++ encLE lb c.ncols ++ encLE lb c.n := by
    have e : cooBytes lb ob wgt cw c = (cooMagic ++ [a] ++ [b] ++ encLE lb c.nrows ++ encLE lb c.ncols ++ encLE lb c.n) ++ (encLE ob c.m ++
        rawArr (encLE lb) c.x ++ rawArr (encLE lb) c.y ++ (if wgt then rawArr cw.enc c.w else [])) := by
      simp only [cooBytes, ea, eb, List.append_assoc]
    rw [e, List.take_left' (by simp [l11]; omega)]
  have hbl : (blank (13 + 3 * lb + ob)).drop (13 + 3 * lb) = encLE ob (256 ^ (ob - 1)) := by
    rw [encLE_fun, le_top hob.1, blank, blank, List.drop_append_of_le_length (by simp; omega), List.drop_replicate]
    congr 2; omega
  rw [hpre, hbl] at hs
  refine ⟨_, hs, fun pad hp => ?_⟩
  have hm' : ∀ pad, cooM lb ob (mapped (cooMagic ++ [a] ++ [b] ++ encLE lb c.nrows ++ encLE lb c.ncols ++ encLE lb c.n ++ encLE ob (256 ^ (ob - 1))) pad) = 256 ^ (ob - 1) := by
    intro pad
    rw [cooM, num_eq, mapped, List.append_assoc, fld_part rfl (by simp [l11]; omega) (encLE_length ..), decLE_encLE (Nat.pow_lt_pow_right (by decide) (by omega))]
  have h1 := (C43_coo_exact T' hT' a b wgt cw (encLE lb c.nrows ++ encLE lb c.ncols ++ encLE lb c.n ++ encLE ob (256 ^ (ob - 1))) pad).2
  rw [ha, hb, show str "PIGO-COO-v1" ++ a :: b :: (encLE lb c.nrows ++ encLE lb c.ncols ++ encLE lb c.n ++ encLE ob (256 ^ (ob - 1))) =
    cooMagic ++ [a] ++ [b] ++ encLE lb c.nrows ++ encLE lb c.ncols ++ encLE lb c.n ++ encLE ob (256 ^ (ob - 1)) by simp [cooMagic]] at h1
  refine (h1 ?_).2
  rw [cooEnd, hm']
  simp only [List.length_append, encLE_length, l11, List.length_singleton]
  omega

example := C89_empty_coo_violated 3 4 4 4 (by decide) (by decide) (by decide) (by decide) false (codecNat 1 (by decide)) (str "old")
  { x := [], y := [], w := [], n := 0, m := 0, nrows := 0, ncols := 0 }
  ⟨by decide, by decide, ⟨by decide, by intro v hv; simp at hv⟩, by decide, by decide, by decide, by decide⟩ rfl

end Pigo
