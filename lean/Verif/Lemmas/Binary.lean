import Verif.Spec.Binary
import Verif.Lemmas.CsrDedup
import Verif.Lemmas.MatrixMarket

/-! # Lemmas for the binary formats -/

namespace Pigo

variable {W α : Type}

/-! ## Encoding -/

@[simp] theorem encLE_length (k n : Nat) : (encLE k n).length = k := by
  induction k generalizing n with
  | zero => rfl
  | succ k ih => simp [encLE, ih]

theorem decLE_encLE {k n : Nat} (h : n < 256 ^ k) : decLE (encLE k n) = n := by
  induction k generalizing n with
  | zero => simp at h; simp [encLE, decLE, h]
  | succ k ih =>
    rw [encLE, decLE, ih (by rw [Nat.pow_succ, Nat.mul_comm] at h; exact Nat.div_lt_of_lt_mul h)]
    rw [UInt8.toNat_ofNat', Nat.mod_eq_of_lt (Nat.mod_lt _ (by omega))]
    omega

theorem encLE_eq (k n : Nat) : encLE k n = Spec.le k n := by
  induction k generalizing n with
  | zero => rfl
  | succ k ih =>
    rw [encLE, ih, Spec.le, Spec.le, List.range_succ_eq_map, List.map_cons, List.map_map]
    congr 1
    · simp
    · apply List.map_congr_left
      intro i _
      simp only [Function.comp]
      rw [Nat.div_div_eq_div_mul, Nat.pow_succ, Nat.mul_comm]

theorem rawArr_length {enc : α → List Byte} {k : Nat} (he : ∀ a, (enc a).length = k) (l : List α) :
    (rawArr enc l).length = k * l.length := by
  induction l with
  | nil => simp [rawArr]
  | cons a l ih =>
    rw [rawArr, List.flatMap_cons, List.length_append, he]
    rw [rawArr] at ih
    rw [ih, List.length_cons, Nat.mul_succ, Nat.add_comm]

theorem decArr_rawArr {enc : α → List Byte} {dec : List Byte → α} {k : Nat} (he : ∀ a, (enc a).length = k) (l : List α)
    (hd : ∀ a ∈ l, dec (enc a) = a) : decArr k dec l.length (rawArr enc l) = l := by
  induction l with
  | nil => rfl
  | cons a l ih =>
    rw [decArr, List.length_cons, List.range_succ_eq_map, List.map_cons, List.map_map, rawArr, List.flatMap_cons]
    congr 1
    · rw [Nat.zero_mul, List.drop_zero, List.take_append_of_le_length (by rw [he]; omega),
        List.take_of_length_le (by rw [he]; omega), hd a (List.mem_cons_self ..)]
    · refine Eq.trans ?_ (ih (fun b hb => hd b (List.mem_cons_of_mem _ hb)))
      rw [decArr]
      apply List.map_congr_left
      intro i _
      simp only [Function.comp]
      rw [List.drop_append, List.drop_of_length_le (by rw [he, Nat.succ_mul]; omega), List.nil_append, he,
        show i.succ * k - k = i * k by rw [Nat.succ_mul]; omega, rawArr]

/-! ## Chunks -/

theorem chunk_bound {n T : Nat} : (T - 1) * (n / T) ≤ n :=
  Nat.le_trans (Nat.mul_le_mul_right _ (Nat.sub_le T 1)) (by rw [Nat.mul_comm]; exact Nat.div_mul_le_self n T)

theorem chunk_end {n T tid : Nat} (ht : tid < T) : chunkStart n T tid + chunkLen n T tid ≤ n := by
  have hb : (T - 1) * (n / T) ≤ n := chunk_bound
  unfold chunkStart chunkLen
  split
  · rename_i h
    subst h
    rw [Nat.mul_comm (n / T)]
    omega
  · have : (tid + 1) * (n / T) ≤ (T - 1) * (n / T) := Nat.mul_le_mul_right _ (by omega)
    rw [Nat.succ_mul] at this
    omega

theorem chunks_prefix (bs : List Byte) (base n T : Nat) (hn : bs.length = n) : ∀ k, k < T →
    ((List.range k).map (fun tid => blockActs (base + chunkStart n T tid) ((bs.drop (chunkStart n T tid)).take (chunkLen n T tid)))).flatten
      = blockActs base (bs.take (k * (n / T))) := by
  intro k hk
  induction k with
  | zero => simp [blockActs]
  | succ k ih =>
    rw [List.range_succ, List.map_append, List.flatten_append, ih (by omega), List.map_cons, List.map_nil, List.flatten_singleton]
    have hb : (T - 1) * (n / T) ≤ n := chunk_bound
    have h1 : (k + 1) * (n / T) ≤ (T - 1) * (n / T) := Nat.mul_le_mul_right _ (by omega)
    rw [Nat.succ_mul] at h1
    have h2 : k * (n / T) ≤ n := Nat.le_trans (Nat.le_trans (Nat.le_add_right _ _) h1) hb
    have hl : (bs.take (k * (n / T))).length = k * (n / T) := by rw [List.length_take, hn]; exact Nat.min_eq_left h2
    have hlen : chunkLen n T k = n / T := if_neg (by omega)
    rw [chunkStart, hlen, Nat.succ_mul, List.take_add, blockActs_append, hl]

theorem chunks_all (bs : List Byte) (base n T : Nat) (hT : 0 < T) (hn : bs.length = n) :
    ((List.range T).map (fun tid => blockActs (base + chunkStart n T tid) ((bs.drop (chunkStart n T tid)).take (chunkLen n T tid)))).flatten
      = blockActs base bs := by
  obtain ⟨k, rfl⟩ : ∃ k, T = k + 1 := ⟨T - 1, by omega⟩
  have h := chunks_prefix bs base n (k + 1) hn k (by omega)
  rw [List.range_succ, List.map_append, List.flatten_append, h, List.map_cons, List.map_nil, List.flatten_singleton]
  have hb : k * (n / (k + 1)) ≤ n := chunk_bound (T := k + 1)
  have hl : (bs.take (k * (n / (k + 1)))).length = k * (n / (k + 1)) := by rw [List.length_take]; omega
  have hlen : chunkLen n (k + 1) k = n - k * (n / (k + 1)) := by
    rw [chunkLen, if_pos (by omega), Nat.mul_comm]; rfl
  rw [chunkStart, hlen, List.take_of_length_le (l := bs.drop _) (by rw [List.length_drop]; omega)]
  conv => rhs; rw [← List.take_append_drop (k * (n / (k + 1))) bs, blockActs_append, hl]

theorem mapE_src {v : Nat → M Byte} {bs : List Byte} (h : ∀ i, i < bs.length → v i = load bs i) (s k : Nat) (hk : s + k ≤ bs.length) :
    mapE v (List.range' s k) = .ok ((bs.drop s).take k) := by
  rw [← mapE_load bs s k hk]
  induction k generalizing s with
  | zero => rfl
  | succ k ih =>
    rw [List.range'_succ, mapE, mapE, ih (s + 1) (by omega), h s (by omega)]

theorem chunks_ok {v : Nat → M Byte} {bs : List Byte} (h : ∀ i, i < bs.length → v i = load bs i) (base n T : Nat) (hn : bs.length = n) :
    mapE (chunkActs v base n T) (List.range T) = .ok ((List.range T).map (fun tid =>
      blockActs (base + chunkStart n T tid) ((bs.drop (chunkStart n T tid)).take (chunkLen n T tid)))) := by
  apply mapE_mem_ok
  intro tid ht
  rw [chunkActs, mapE_src h _ _ (by rw [hn]; exact chunk_end (List.mem_range.mp ht)), ok_bind]

/-- The stores of a parallel copy, in any interleaving, copy the source. -/
theorem par_copy {v : Nat → M Byte} {bs : List Byte} (h : ∀ i, i < bs.length → v i = load bs i) {base n T : Nat} (hT : 0 < T)
    (hn : bs.length = n) {dst : List Byte} (hd : base + n ≤ dst.length) :
    ∃ threads, mapE (chunkActs v base n T) (List.range T) = .ok threads ∧
      (R.par storeAct threads dst).All (fun d => d = dst.take base ++ bs ++ dst.drop (base + n)) := by
  refine ⟨_, chunks_ok h base n T hn, R.All.par (fun sched hs => ⟨_, ?_, rfl⟩)⟩
  have hp := hs.perm
  rw [chunks_all bs base n T hT hn] at hp
  rw [run_block hp dst (by omega), hn]

/-! ## Writing -/

/-- The first bytes of a file of `size` bytes are `P`, and the position is after them. -/
structure Wrote (f : WFile) (size : Nat) (P : List Byte) : Prop where
  fp : f.fp = P.length
  size : f.bytes.length = size
  pre : f.bytes.take P.length = P

theorem Wrote.put {f : WFile} {size : Nat} {P bs : List Byte} (h : Wrote f size P) (hs : P.length + bs.length ≤ size) :
    Wrote ⟨f.fp + bs.length, f.bytes.take f.fp ++ bs ++ f.bytes.drop (f.fp + bs.length)⟩ size (P ++ bs) := by
  have hl := h.size
  refine ⟨by simp [h.fp], ?_, ?_⟩
  · simp only [List.length_append, List.length_take, List.length_drop, h.fp]; omega
  · simp only
    rw [h.fp, h.pre, List.take_append_of_le_length (Nat.le_refl _), List.take_length]

theorem openW_all {size : Nat} (h : 0 < size) : (R.lift (openW size)).All (fun f => Wrote f size []) := by
  refine R.All.lift (a := ⟨0, List.replicate (size - 1) 0 ++ [1]⟩) (if_neg (by omega)) ⟨rfl, ?_, rfl⟩
  simp; omega

theorem wBytes_all {f : WFile} {size : Nat} {P : List Byte} (h : Wrote f size P) (bs : List Byte) (hs : P.length + bs.length ≤ size) :
    (R.lift (wBytes bs f)).All (fun f => Wrote f size (P ++ bs)) := by
  refine R.All.lift (a := ⟨f.fp + bs.length, f.bytes.take f.fp ++ bs ++ f.bytes.drop (f.fp + bs.length)⟩) ?_ (h.put hs)
  rw [wBytes, run_block (List.Perm.refl _) f.bytes (by rw [h.fp, h.size]; exact hs)]
  rfl

theorem parWrite_all {f : WFile} {size : Nat} {P : List Byte} (h : Wrote f size P) {T : Nat} (hT : 0 < T) (v : List Byte) {n : Nat}
    (hn : v.length = n) (hs : P.length + n ≤ size) : (parWrite T v n f).All (fun f => Wrote f size (P ++ v)) := by
  obtain ⟨threads, h1, h2⟩ := par_copy (v := load v) (bs := v) (fun _ _ => rfl) (base := f.fp) hT hn (dst := f.bytes)
    (by rw [h.fp, h.size]; exact hs)
  unfold parWrite
  refine R.All.bind (R.All.lift h1 (Q := fun t => t = threads) rfl) (fun t ht => ?_)
  subst ht
  refine R.All.bind h2 (fun d hd => R.All.pure ?_)
  subst hd
  subst hn
  exact h.put hs

theorem saveWeights_all {f : WFile} {size : Nat} {P : List Byte} (h : Wrote f size P) {T : Nat} (hT : 0 < T) {wgt : Bool} (cw : Codec W)
    {m : Nat} {w : List W} (hw : w.length = if wgt then m else 0) (hs : P.length + weightSize wgt cw m ≤ size) :
    (saveWeights T wgt cw m w f).All (fun f => Wrote f size (P ++ (if wgt then rawArr cw.enc w else []))) := by
  have hl : wgt = true → (rawArr cw.enc w).length = cw.size * m := fun h => by rw [rawArr_length cw.len, hw, if_pos h]
  unfold saveWeights
  split
  · rename_i h0
    cases wgt with
    | false => simp [weightSize] at h0
    | true => simp only [if_pos]; exact parWrite_all h hT _ (by rw [hl rfl]; rfl) hs
  · rename_i h0
    refine R.All.pure ?_
    cases wgt with
    | false => simpa using h
    | true =>
      have : rawArr cw.enc w = [] := by
        apply List.eq_nil_of_length_eq_zero
        rw [hl rfl]
        simp only [weightSize, if_pos] at h0
        omega
      rw [if_pos rfl, this, List.append_nil]; exact h

theorem Wrote.done {f : WFile} {P : List Byte} (h : Wrote f P.length P) : f.bytes = P := by
  rw [← h.pre, ← h.size, List.take_length]

/-! ## Reading -/

/-- All readable bytes of a mapping. -/
def Mapping.mem (μ : Mapping) : List Byte := μ.bytes ++ List.replicate μ.pad 0

theorem Mapping.get_load (μ : Mapping) (p : Nat) : μ.get p = load μ.mem p := by
  unfold load mem
  by_cases h : p < μ.bytes.length
  · rw [List.getElem?_append_left h, List.getElem?_eq_getElem h, μ.get_lt h]
  · by_cases h' : p < μ.bytes.length + μ.pad
    · rw [List.getElem?_append_right (by omega), List.getElem?_replicate, if_pos (by omega), μ.get_pad (by omega) h']
    · rw [List.getElem?_append_right (by omega), List.getElem?_replicate, if_neg (by omega), μ.get_oob (by omega)]

theorem Mapping.mem_length (μ : Mapping) : μ.mem.length = μ.bytes.length + μ.pad := by simp [mem]

theorem getBytes_mem (μ : Mapping) : ∀ n p, p + n ≤ μ.mem.length → getBytes μ n p = .ok ((μ.mem.drop p).take n)
  | 0, p, _ => by simp [getBytes]
  | n+1, p, h => by
    rw [getBytes, μ.get_load, load_ok (List.getElem?_eq_getElem (show p < μ.mem.length by omega)), ok_bind,
      getBytes_mem μ n (p+1) (by omega), ok_bind, List.drop_eq_getElem_cons (i := p) (by omega), List.take_succ_cons]

/-- From position `p` on the readable bytes are `l`. -/
def Rest (μ : Mapping) (p : Nat) (l : List Byte) : Prop := p ≤ μ.mem.length ∧ μ.mem.drop p = l

theorem Rest.len {μ : Mapping} {p : Nat} {l : List Byte} (h : Rest μ p l) : p + l.length = μ.mem.length := by
  have := h.1
  rw [← h.2, List.length_drop]; omega

theorem Rest.next {μ : Mapping} {p : Nat} {a l : List Byte} (h : Rest μ p (a ++ l)) : Rest μ (p + a.length) l := by
  have := h.len
  rw [List.length_append] at this
  refine ⟨by omega, ?_⟩
  rw [← List.drop_drop, h.2, List.drop_left]

theorem rdLE_at {μ : Mapping} {p k : Nat} {a l : List Byte} (h : Rest μ p (a ++ l)) (hk : a.length = k) :
    rdLE μ k p = .ok (decLE a, p + k) := by
  have := h.len
  rw [List.length_append] at this
  rw [rdLE, getBytes_mem μ k p (by omega), h.2, List.take_append_of_le_length (by omega), List.take_of_length_le (by omega)]
  rfl

theorem rdStr_at {μ : Mapping} {p : Nat} {s l : List Byte} (h : Rest μ p (s ++ l)) (hb : p + s.length < μ.bytes.length) :
    rdStr μ s p = .ok (p + s.length) := by
  have := h.len
  rw [List.length_append] at this
  rw [rdStr, atStr, if_neg (by show ¬ _; simp only; omega), getBytes_mem μ _ p (by omega), h.2,
    List.take_append_of_le_length (by omega), List.take_of_length_le (by omega)]
  simp

theorem readArr_at {μ : Mapping} {p : Nat} {raw l : List Byte} (h : Rest μ p (raw ++ l)) {T : Nat} (hT : 0 < T) {k n bytes : Nat}
    (hb : raw.length = bytes) (hk : bytes = k * n) (dec : List Byte → α) :
    (readArr T μ k dec n bytes p).All (fun r => r = (decArr k dec n raw, p + bytes)) := by
  have hlen := h.len
  rw [List.length_append] at hlen
  unfold readArr
  refine R.All.bind R.All.any (fun junk _ => ?_)
  obtain ⟨threads, h1, h2⟩ := par_copy (v := fun i => μ.get (p + i)) (bs := raw) (T := T) (n := bytes) (base := 0) (dst := alloc junk (k * n)) (by
    intro i hi
    rw [μ.get_load]
    have e : μ.mem[p + i]? = raw[i]? := by
      rw [← List.getElem?_drop, h.2, List.getElem?_append_left hi]
    rw [load, load, e]) hT hb (by rw [alloc_length]; omega)
  refine R.All.bind (P := fun r => r = (raw, p + bytes)) ?_ (fun r hr => ?_)
  · unfold parRead
    refine R.All.bind (R.All.lift h1 (Q := fun t => t = threads) rfl) (fun t ht => ?_)
    subst ht
    refine R.All.bind h2 (fun d hd => R.All.pure ?_)
    rw [hd, List.take_zero, List.nil_append, List.drop_of_length_le (by rw [alloc_length]; omega), List.append_nil]
  · subst hr
    exact R.All.pure rfl

theorem readWeights_at {μ : Mapping} {p : Nat} {l : List Byte} {wgt : Bool} {cw : Codec W} {w : List W} {m : Nat}
    (h : Rest μ p ((if wgt then rawArr cw.enc w else []) ++ l)) {T : Nat} (hT : 0 < T) (hw : w.length = if wgt then m else 0)
    (hok : ∀ v ∈ w, cw.ok v) : (readWeights T μ wgt cw m p).All (fun r => r = (w, p + weightSize wgt cw m)) := by
  unfold readWeights
  split
  · rename_i h0
    cases wgt with
    | false => simp [weightSize] at h0
    | true =>
      simp only [if_pos] at h hw
      refine (readArr_at h hT (bytes := weightSize true cw m) (by simp [rawArr_length cw.len, hw, weightSize]) rfl cw.dec).mono (fun r hr => ?_)
      rw [hr, ← hw, decArr_rawArr cw.len w (fun a ha => cw.inv a (hok a ha))]
  · rename_i h0
    refine R.All.pure ?_
    have hn : w = [] := by
      cases wgt with
      | false => exact List.eq_nil_of_length_eq_zero (by simpa using hw)
      | true =>
        simp only [if_pos] at hw
        simp only [weightSize, if_pos] at h0
        apply List.eq_nil_of_length_eq_zero
        rw [hw]
        rcases Nat.eq_zero_or_pos m with h | h
        · exact h
        · exact absurd (Nat.mul_pos cw.pos h) h0
    rw [hn, show weightSize wgt cw m = 0 by omega]
    rfl

theorem R.All.step {o : M α} {a : α} {β : Type} {k : α → R β} {Q : β → Prop} (h : o = .ok a) (hk : (k a).All Q) :
    (R.lift o >>= k).All Q := R.All.bind (R.All.lift h (Q := fun x => x = a) rfl) (fun _ hx => hx ▸ hk)

theorem R.All.same {p : R α} {a : α} {β : Type} {k : α → R β} {Q : β → Prop} (h : p.All (fun x => x = a)) (hk : (k a).All Q) :
    (p >>= k).All Q := R.All.bind h (fun _ hx => hx ▸ hk)

end Pigo
