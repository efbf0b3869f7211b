import Verif.Model.Wide
import Verif.Spec.Wide
import Verif.Lemmas.RaceFile
import Verif.Lemmas.CrashLoad
import Verif.Props.Binary2

/-!
# C93: sizes in 64 bits

`wReadBin…` and `wSave…` compute their sizes in `size_t`, `readBin…` and `save…` in unbounded arithmetic; all other properties are about the latter.
-/

namespace Pigo

open Spec

variable {α β W : Type}

theorem szt_lt {n : Nat} (h : n < 2 ^ 64) : szt n = n := Nat.mod_eq_of_lt h

theorem readCap_eq (T : Nat) (μ : Mapping) {k : Nat} (hk : 0 < k) (dec : List Byte → α) (n bytes p : Nat) :
    readCap T μ k dec (k * n) bytes p = readArr T μ k dec n bytes p := by
  unfold readCap readArr
  rw [Nat.mul_div_cancel_left n hk]

/-! ### Outcomes up to a failed allocation -/

/-- Every outcome of `p` is one of `q`, or an exception. -/
def UpTo (p q : R α) : Prop := ∀ o, p o → q o ∨ o = .error .error

theorem UpTo.refl (p : R α) : UpTo p p := fun _ h => .inl h

theorem UpTo.bind {p : R α} {k k' : α → R β} (h : ∀ a, p (.ok a) → UpTo (k a) (k' a)) : UpTo (p >>= k) (p >>= k') := by
  rintro o ⟨o1, h1, h2⟩
  cases o1 with
  | error f => exact .inl ⟨_, h1, h2⟩
  | ok a =>
    rcases h a h1 o h2 with h | h
    · exact .inl ⟨_, h1, h⟩
    · exact .inr h

theorem UpTo.lift {x : M α} {k k' : α → R β} (h : ∀ a, x = .ok a → UpTo (k a) (k' a)) : UpTo (R.lift x >>= k) (R.lift x >>= k') :=
  .bind fun a ha => h a ha.symm

theorem UpTo.alloc {s : Storage} {k n : Nat} {kk : Nat → R β} {q : R β} (hs : s ≠ .pointer) (h : k * n < 2 ^ 63 → UpTo (kk (k * n)) q) :
    UpTo (R.lift (allocW s k n) >>= kk) q := by
  have ha : allocW s k n = if k * n < 2 ^ 63 then .ok (k * n) else .error .error := by
    cases s <;> first | rfl | exact absurd rfl hs
  rintro o ⟨o1, h1, h2⟩
  have h1 : o1 = allocW s k n := h1
  rw [ha] at h1
  split at h1
  · rename_i hlt
    subst h1
    exact h hlt o h2
  · subst h1
    exact .inr h2

theorem UpTo.allocWeights {ws : Storage} {wgt : Bool} {cw : Codec W} {m : Nat} {kk : Nat → R β} {q : R β} (hs : ws ≠ .pointer)
    (h : (wgt = true → cw.size * m < 2 ^ 63) → UpTo (kk (if wgt then cw.size * m else 0)) q) : UpTo (R.lift (allocWeightsW ws wgt cw m) >>= kk) q := by
  cases wgt with
  | true => exact UpTo.alloc hs fun hlt => h fun _ => hlt
  | false =>
    rintro o ⟨o1, h1, h2⟩
    have h1 : o1 = .ok 0 := h1
    subst h1
    exact h (by simp) o h2

theorem weightSizeW_eq {wgt : Bool} {cw : Codec W} {m : Nat} (h : wgt = true → cw.size * m < 2 ^ 64) : weightSizeW wgt cw m = weightSize wgt cw m := by
  cases wgt with
  | true => exact szt_lt (h rfl)
  | false => rfl

theorem readWeightsW_eq (T : Nat) (μ : Mapping) {wgt : Bool} {cw : Codec W} {m : Nat} (h : wgt = true → cw.size * m < 2 ^ 63) (p : Nat) :
    readWeightsW T μ wgt cw (if wgt then cw.size * m else 0) m p = readWeights T μ wgt cw m p := by
  unfold readWeightsW readWeights
  rw [weightSizeW_eq fun hw => Nat.lt_trans (h hw) (by decide)]
  cases wgt with
  | true => simp only [if_true]; rw [readCap_eq T μ cw.pos]
  | false => rfl

/-- **C93 (COO, managed storage)**: whatever the file says, a load with vectors or shared pointers ends as in unbounded arithmetic or throws. -/
theorem C93_coo_managed (s ws : Storage) (hs : s ≠ .pointer) (hw : ws ≠ .pointer) (T lb ob : Nat) (hlb : 0 < lb) (wgt : Bool) (cw : Codec W)
    (μ : Mapping) (p : Nat) (o : M (Coo W × Nat)) (h : (wReadBinCoo s ws T lb ob wgt cw μ p).Out o) :
    (readBinCoo T lb ob wgt cw μ p).Out o ∨ o = .error .error := by
  refine (show UpTo (wReadBinCoo s ws T lb ob wgt cw μ p) (readBinCoo T lb ob wgt cw μ p) from ?_) o h
  unfold wReadBinCoo readBinCoo
  refine .lift fun p _ => .lift fun ⟨ls, p⟩ _ => .lift fun ⟨os, p⟩ _ => .lift fun _ _ => .lift fun _ _ => .lift fun ⟨nrows, p⟩ _ =>
    .lift fun ⟨ncols, p⟩ _ => .lift fun ⟨n, p⟩ _ => .lift fun ⟨m, p⟩ _ => .alloc hs fun hm => .alloc hs fun _ => .allocWeights hw fun hm' => ?_
  dsimp only
  rw [szt_lt (Nat.lt_trans hm (by decide)), readCap_eq T μ hlb]
  refine .bind fun ⟨x, p⟩ _ => ?_
  dsimp only
  rw [readCap_eq T μ hlb]
  refine .bind fun ⟨y, p⟩ _ => ?_
  dsimp only
  rw [readWeightsW_eq T μ hm']
  exact .refl _

/-- C93 (CSR, managed storage) -/
theorem C93_csr_managed (st : Storage × Storage) (ws : Storage) (h1 : st.1 ≠ .pointer) (h2 : st.2 ≠ .pointer) (hw : ws ≠ .pointer) (T lb ob : Nat)
    (hlb : 0 < lb) (hob : 0 < ob) (wgt : Bool) (cw : Codec W) (μ : Mapping) (p : Nat) (o : M (Csr W × Nat))
    (h : (wReadBinCsr st ws T lb ob wgt cw μ p).Out o) : (readBinCsr T lb ob wgt cw μ p).Out o ∨ o = .error .error := by
  refine (show UpTo (wReadBinCsr st ws T lb ob wgt cw μ p) (readBinCsr T lb ob wgt cw μ p) from ?_) o h
  unfold wReadBinCsr readBinCsr
  refine .lift fun p _ => .lift fun ⟨ls, p⟩ _ => .lift fun ⟨os, p⟩ _ => .lift fun _ _ => .lift fun _ _ => .lift fun ⟨n, p⟩ _ =>
    .lift fun ⟨m, p⟩ _ => .lift fun ⟨nrows, p⟩ _ => .lift fun ⟨ncols, p⟩ _ => .alloc h1 fun hm => .allocWeights hw fun hm' => .alloc h2 fun hn => ?_
  dsimp only
  rw [szt_lt (Nat.lt_trans hm (by decide)), szt_lt (Nat.lt_trans hn (by decide)), readCap_eq T μ hob]
  refine .bind fun ⟨x, p⟩ _ => ?_
  dsimp only
  rw [readCap_eq T μ hlb]
  refine .bind fun ⟨y, p⟩ _ => ?_
  dsimp only
  rw [readWeightsW_eq T μ hm']
  exact .refl _

/-! ### Files with a given header -/

theorem R.lift_bind {x : M α} {a : α} (h : x = .ok a) (k : α → R β) : (R.lift x >>= k) = k a := by
  subst h
  funext o
  apply propext
  constructor
  · rintro ⟨o1, h1, h2⟩
    cases h1
    exact h2
  · exact fun h => ⟨_, rfl, h⟩

theorem sizeCheck_self (a : Nat) : sizeCheck a a = .ok () := if_neg (fun h => h rfl)

/-- What `read_bin_` of COO does after the header. -/
theorem coo_head {lb ob nrows ncols n m : Nat} (hlb : lb < 256) (hob : ob < 256) (h1 : nrows < 256 ^ lb) (h2 : ncols < 256 ^ lb) (h3 : n < 256 ^ lb)
    (h4 : m < 256 ^ ob) {μ : Mapping} {rest : List Byte} (hμ : μ.bytes = cooHead lb ob nrows ncols n m ++ rest) {β : Type} (k : Nat → Nat → Nat → Nat → Nat → R β) :
    (do
      let p ← R.lift (rdStr μ cooMagic 0)
      let (ls, p) ← R.lift (rdLE μ 1 p)
      let (os, p) ← R.lift (rdLE μ 1 p)
      let _ ← R.lift (sizeCheck ls lb)
      let _ ← R.lift (sizeCheck os ob)
      let (nrows, p) ← R.lift (rdLE μ lb p)
      let (ncols, p) ← R.lift (rdLE μ lb p)
      let (n, p) ← R.lift (rdLE μ lb p)
      let (m, p) ← R.lift (rdLE μ ob p)
      k nrows ncols n m p) = k nrows ncols n m (cooHead lb ob nrows ncols n m).length := by
  have hr : Rest μ 0 (cooMagic ++ (encLE 1 lb ++ (encLE 1 ob ++ (encLE lb nrows ++ (encLE lb ncols ++ (encLE lb n ++ (encLE ob m ++
      (rest ++ List.replicate μ.pad 0)))))))) := by
    refine ⟨Nat.zero_le _, ?_⟩
    rw [List.drop_zero, Mapping.mem, hμ, cooHead]
    simp only [encLE_eq, List.append_assoc]
    rfl
  have hlen : (cooHead lb ob nrows ncols n m).length = cooMagic.length + 1 + 1 + lb + lb + lb + ob := by
    simp only [cooHead, List.length_append, ← encLE_eq, encLE_length, cooMagic]
  have hb : 0 + cooMagic.length < μ.bytes.length := by
    rw [hμ, List.length_append, hlen]; omega
  rw [R.lift_bind (rdStr_at hr hb)]
  have hr := hr.next
  rw [R.lift_bind (rdLE_at hr (encLE_length ..))]
  have hr := hr.next; rw [encLE_length] at hr
  dsimp only
  rw [R.lift_bind (rdLE_at hr (encLE_length ..))]
  have hr := hr.next; rw [encLE_length] at hr
  dsimp only
  rw [decLE_encLE (k := 1) (n := lb) (by simpa using hlb), decLE_encLE (k := 1) (n := ob) (by simpa using hob)]
  rw [R.lift_bind (sizeCheck_self lb), R.lift_bind (sizeCheck_self ob)]
  rw [R.lift_bind (rdLE_at hr (encLE_length ..))]
  have hr := hr.next; rw [encLE_length] at hr
  dsimp only
  rw [R.lift_bind (rdLE_at hr (encLE_length ..))]
  have hr := hr.next; rw [encLE_length] at hr
  dsimp only
  rw [R.lift_bind (rdLE_at hr (encLE_length ..))]
  have hr := hr.next; rw [encLE_length] at hr
  dsimp only
  rw [R.lift_bind (rdLE_at hr (encLE_length ..))]
  dsimp only
  rw [decLE_encLE h1, decLE_encLE h2, decLE_encLE h3, decLE_encLE h4, hlen, Nat.zero_add]

/-- What `read_bin_` of CSR does after the header. -/
theorem csr_head {lb ob n m nrows ncols : Nat} (hlb : lb < 256) (hob : ob < 256) (h1 : nrows < 256 ^ lb) (h2 : ncols < 256 ^ lb) (h3 : n < 256 ^ lb)
    (h4 : m < 256 ^ ob) {μ : Mapping} {rest : List Byte} (hμ : μ.bytes = csrHead lb ob n m nrows ncols ++ rest) {β : Type} (k : Nat → Nat → Nat → Nat → Nat → R β) :
    (do
      let p ← R.lift (rdStr μ csrMagic 0)
      let (ls, p) ← R.lift (rdLE μ 1 p)
      let (os, p) ← R.lift (rdLE μ 1 p)
      let _ ← R.lift (sizeCheck ls lb)
      let _ ← R.lift (sizeCheck os ob)
      let (n, p) ← R.lift (rdLE μ lb p)
      let (m, p) ← R.lift (rdLE μ ob p)
      let (nrows, p) ← R.lift (rdLE μ lb p)
      let (ncols, p) ← R.lift (rdLE μ lb p)
      k n m nrows ncols p) = k n m nrows ncols (csrHead lb ob n m nrows ncols).length := by
  have hr : Rest μ 0 (csrMagic ++ (encLE 1 lb ++ (encLE 1 ob ++ (encLE lb n ++ (encLE ob m ++ (encLE lb nrows ++ (encLE lb ncols ++
      (rest ++ List.replicate μ.pad 0)))))))) := by
    refine ⟨Nat.zero_le _, ?_⟩
    rw [List.drop_zero, Mapping.mem, hμ, csrHead]
    simp only [encLE_eq, List.append_assoc]
    rfl
  have hlen : (csrHead lb ob n m nrows ncols).length = csrMagic.length + 1 + 1 + lb + ob + lb + lb := by
    simp only [csrHead, List.length_append, ← encLE_eq, encLE_length, csrMagic]
  have hb : 0 + csrMagic.length < μ.bytes.length := by
    rw [hμ, List.length_append, hlen]; omega
  rw [R.lift_bind (rdStr_at hr hb)]
  have hr := hr.next
  rw [R.lift_bind (rdLE_at hr (encLE_length ..))]
  have hr := hr.next; rw [encLE_length] at hr
  dsimp only
  rw [R.lift_bind (rdLE_at hr (encLE_length ..))]
  have hr := hr.next; rw [encLE_length] at hr
  dsimp only
  rw [decLE_encLE (k := 1) (n := lb) (by simpa using hlb), decLE_encLE (k := 1) (n := ob) (by simpa using hob)]
  rw [R.lift_bind (sizeCheck_self lb), R.lift_bind (sizeCheck_self ob)]
  rw [R.lift_bind (rdLE_at hr (encLE_length ..))]
  have hr := hr.next; rw [encLE_length] at hr
  dsimp only
  rw [R.lift_bind (rdLE_at hr (encLE_length ..))]
  have hr := hr.next; rw [encLE_length] at hr
  dsimp only
  rw [R.lift_bind (rdLE_at hr (encLE_length ..))]
  have hr := hr.next; rw [encLE_length] at hr
  dsimp only
  rw [R.lift_bind (rdLE_at hr (encLE_length ..))]
  dsimp only
  rw [decLE_encLE h1, decLE_encLE h2, decLE_encLE h3, decLE_encLE h4, hlen, Nat.zero_add]

/-- What `read_bin_` of Tensor does after the header. -/
theorem tensor_head {lb ob order m : Nat} (hlb : lb < 256) (hob : ob < 256) (h1 : order < 256 ^ ob) (h4 : m < 256 ^ ob) {wgt : Bool} (cw : Codec W)
    (hcw : wgt = true → cw.size < 256) {μ : Mapping} {rest : List Byte} (hμ : μ.bytes = tensorHead lb ob wgt cw.size order m ++ rest) {β : Type}
    (k : Nat → Nat → Nat → R β) :
    (do
      let p ← R.lift (rdStr μ tensorMagic 0)
      let (ls, p) ← R.lift (rdLE μ 1 p)
      let (os, p) ← R.lift (rdLE μ 1 p)
      let _ ← R.lift (sizeCheck ls lb)
      let _ ← R.lift (sizeCheck os ob)
      let p ← R.lift (if wgt then (rdLE μ 1 p >>= fun (ws, p) => sizeCheck ws cw.size >>= fun _ => .ok p) else .ok p)
      let (order, p) ← R.lift (rdLE μ ob p)
      let (m, p) ← R.lift (rdLE μ ob p)
      k order m p) = k order m (tensorHead lb ob wgt cw.size order m).length := by
  have hr : Rest μ 0 (tensorMagic ++ (encLE 1 lb ++ (encLE 1 ob ++ ((if wgt then encLE 1 cw.size else []) ++ (encLE ob order ++ (encLE ob m ++
      (rest ++ List.replicate μ.pad 0))))))) := by
    refine ⟨Nat.zero_le _, ?_⟩
    rw [List.drop_zero, Mapping.mem, hμ, tensorHead]
    simp only [encLE_eq, List.append_assoc]
    rfl
  have hlen : (tensorHead lb ob wgt cw.size order m).length = tensorMagic.length + 1 + 1 + (if wgt then 1 else 0) + ob + ob := by
    cases wgt <;> simp [tensorHead, ← encLE_eq, encLE_length, tensorMagic, Nat.add_assoc] <;> omega
  have hb : 0 + tensorMagic.length < μ.bytes.length := by
    rw [hμ, List.length_append, hlen]; omega
  rw [R.lift_bind (rdStr_at hr hb)]
  have hr := hr.next
  rw [R.lift_bind (rdLE_at hr (encLE_length ..))]
  have hr := hr.next; rw [encLE_length] at hr
  dsimp only
  rw [R.lift_bind (rdLE_at hr (encLE_length ..))]
  have hr := hr.next; rw [encLE_length] at hr
  dsimp only
  rw [decLE_encLE (k := 1) (n := lb) (by simpa using hlb), decLE_encLE (k := 1) (n := ob) (by simpa using hob)]
  rw [R.lift_bind (sizeCheck_self lb), R.lift_bind (sizeCheck_self ob)]
  have hw : (if wgt then (rdLE μ 1 (0 + tensorMagic.length + 1 + 1) >>= fun (ws, p) => sizeCheck ws cw.size >>= fun _ => .ok p)
      else .ok (0 + tensorMagic.length + 1 + 1)) = (.ok (0 + tensorMagic.length + 1 + 1 + (if wgt then 1 else 0)) : M Nat) := by
    cases wgt with
    | false => rfl
    | true =>
      simp only [if_true] at hr ⊢
      rw [rdLE_at hr (encLE_length ..), decLE_encLE (k := 1) (n := cw.size) (by simpa using hcw rfl)]
      show (sizeCheck cw.size cw.size >>= fun _ => (.ok _ : M Nat)) = _
      rw [sizeCheck_self]
      rfl
  have hr := hr.next
  rw [R.lift_bind hw]
  have hl : (if wgt then encLE 1 cw.size else []).length = if wgt then 1 else 0 := by cases wgt <;> simp [encLE_length]
  rw [hl] at hr
  rw [R.lift_bind (rdLE_at hr (encLE_length ..))]
  have hr := hr.next; rw [encLE_length] at hr
  dsimp only
  rw [R.lift_bind (rdLE_at hr (encLE_length ..))]
  dsimp only
  rw [decLE_encLE h1, decLE_encLE h4, hlen, Nat.zero_add]

/-- A read of as many bytes as the array has. -/
theorem readCap_at {μ : Mapping} {p : Nat} {T : Nat} (hT : 0 < T) {k bytes : Nat} (h : p + bytes ≤ μ.mem.length) (dec : List Byte → α) :
    (readCap T μ k dec bytes bytes p).All (fun r => r.1.length = bytes / k ∧ r.2 = p + bytes) := by
  unfold readCap
  refine R.All.bind R.All.any (fun junk _ => ?_)
  have hl : ((μ.mem.drop p).take bytes).length = bytes := by rw [List.length_take, List.length_drop]; omega
  obtain ⟨threads, h1, h2⟩ := par_copy (v := fun i => μ.get (p + i)) (bs := (μ.mem.drop p).take bytes) (T := T) (n := bytes) (base := 0)
    (dst := alloc junk bytes) (by
      intro i hi
      rw [μ.get_load]
      have e : μ.mem[p + i]? = ((μ.mem.drop p).take bytes)[i]? := by
        rw [hl] at hi
        rw [List.getElem?_take_of_lt hi, List.getElem?_drop]
      rw [load, load, e]) hT hl (by rw [alloc_length]; omega)
  refine R.All.bind (P := fun r => r.2 = p + bytes) ?_ (fun r hr => ?_)
  · unfold parRead
    refine R.All.bind (R.All.lift h1 (Q := fun t => t = threads) rfl) (fun t ht => ?_)
    subst ht
    exact R.All.bind h2 (fun d hd => R.All.pure rfl)
  · exact R.All.pure ⟨decArr_length, hr⟩

/-! ### Sizes below the limit -/

/-- An allocation below the limit. -/
theorem allocW_small (s : Storage) {k n : Nat} (h : k * n < 2 ^ 63) : allocW s k n = .ok (k * n) := by
  have : szt (k * n) = k * n := szt_lt (Nat.lt_trans h (by decide))
  cases s <;> simp only [allocW, this, if_pos h]

theorem allocWeightsW_small (ws : Storage) {wgt : Bool} {cw : Codec W} {m : Nat} (h : wgt = true → cw.size * m < 2 ^ 63) :
    allocWeightsW ws wgt cw m = .ok (if wgt then cw.size * m else 0) := by
  cases wgt with
  | true => exact allocW_small ws (h rfl)
  | false => rfl

/-- After the header. -/
def wCooTail (s ws : Storage) (T lb : Nat) (wgt : Bool) (cw : Codec W) (μ : Mapping) (nrows ncols n m p : Nat) : R (Coo W × Nat) := do
  let cx ← R.lift (allocW s lb m)
  let cy ← R.lift (allocW s lb m)
  let cww ← R.lift (allocWeightsW ws wgt cw m)
  let (x, p) ← readCap T μ lb decLE cx (szt (lb * m)) p
  let (y, p) ← readCap T μ lb decLE cy (szt (lb * m)) p
  let (w, p) ← readWeightsW T μ wgt cw cww m p
  pure ({ x := x, y := y, w := w, n := n, m := m, nrows := nrows, ncols := ncols }, p)

/-- After the header. -/
def cooTail (T lb : Nat) (wgt : Bool) (cw : Codec W) (μ : Mapping) (nrows ncols n m p : Nat) : R (Coo W × Nat) := do
  let (x, p) ← readArr T μ lb decLE m (lb * m) p
  let (y, p) ← readArr T μ lb decLE m (lb * m) p
  let (w, p) ← readWeights T μ wgt cw m p
  pure ({ x := x, y := y, w := w, n := n, m := m, nrows := nrows, ncols := ncols }, p)

/-- After the header. -/
def wCsrTail (st : Storage × Storage) (ws : Storage) (T lb ob : Nat) (wgt : Bool) (cw : Codec W) (μ : Mapping) (n m nrows ncols p : Nat) :
    R (Csr W × Nat) := do
  let ce ← R.lift (allocW st.1 lb m)
  let cww ← R.lift (allocWeightsW ws wgt cw m)
  let co ← R.lift (allocW st.2 ob (succL lb n))
  let (offsets, p) ← readCap T μ ob decLE co (szt (ob * succL lb n)) p
  let (endpoints, p) ← readCap T μ lb decLE ce (szt (lb * m)) p
  let (weights, p) ← readWeightsW T μ wgt cw cww m p
  pure ({ offsets := offsets, endpoints := endpoints, weights := weights, n := n, m := m, nrows := nrows, ncols := ncols }, p)

/-- After the header. -/
def csrTail (T lb ob : Nat) (wgt : Bool) (cw : Codec W) (μ : Mapping) (n m nrows ncols p : Nat) : R (Csr W × Nat) := do
  let (offsets, p) ← readArr T μ ob decLE (succL lb n) (ob * succL lb n) p
  let (endpoints, p) ← readArr T μ lb decLE m (lb * m) p
  let (weights, p) ← readWeights T μ wgt cw m p
  pure ({ offsets := offsets, endpoints := endpoints, weights := weights, n := n, m := m, nrows := nrows, ncols := ncols }, p)

/-- After the header. -/
def wTensorTail (s ws : Storage) (T lb ob : Nat) (wgt : Bool) (cw : Codec W) (μ : Mapping) (order m p : Nat) : R (Tensor W) := do
  let cc ← R.lift (allocW s lb (inOrd (8 * ob) (order * m)))
  let cww ← R.lift (allocWeightsW ws wgt cw m)
  let (c, p) ← readCap T μ lb decLE cc (szt (lb * order * m)) p
  let (w, _) ← readWeightsW T μ wgt cw cww m p
  pure { c := c, w := w, order := order, m := m }

/-- After the header. -/
def tensorTail (T lb ob : Nat) (wgt : Bool) (cw : Codec W) (μ : Mapping) (order m p : Nat) : R (Tensor W) := do
  let (c, p) ← readArr T μ lb decLE (inOrd (8 * ob) (order * m)) (lb * order * m) p
  let (w, _) ← readWeights T μ wgt cw m p
  pure { c := c, w := w, order := order, m := m }

section
variable {lb ob nrows ncols n m order : Nat} (hlb' : lb < 256) (hob : ob < 256) (h1 : nrows < 256 ^ lb) (h2 : ncols < 256 ^ lb) (h3 : n < 256 ^ lb)
  (h4 : m < 256 ^ ob) (h5 : order < 256 ^ ob) {μ : Mapping} {rest : List Byte}
include hlb' hob h4

theorem wReadBinCoo_head (h1 : nrows < 256 ^ lb) (h2 : ncols < 256 ^ lb) (h3 : n < 256 ^ lb) (hμ : μ.bytes = cooHead lb ob nrows ncols n m ++ rest)
    (s ws : Storage) (T : Nat) (wgt : Bool) (cw : Codec W) :
    wReadBinCoo s ws T lb ob wgt cw μ 0 = wCooTail s ws T lb wgt cw μ nrows ncols n m (cooHead lb ob nrows ncols n m).length :=
  coo_head hlb' hob h1 h2 h3 h4 hμ (wCooTail s ws T lb wgt cw μ)

theorem readBinCoo_head (h1 : nrows < 256 ^ lb) (h2 : ncols < 256 ^ lb) (h3 : n < 256 ^ lb) (hμ : μ.bytes = cooHead lb ob nrows ncols n m ++ rest)
    (T : Nat) (wgt : Bool) (cw : Codec W) :
    readBinCoo T lb ob wgt cw μ 0 = cooTail T lb wgt cw μ nrows ncols n m (cooHead lb ob nrows ncols n m).length :=
  coo_head hlb' hob h1 h2 h3 h4 hμ (cooTail T lb wgt cw μ)

theorem wReadBinCsr_head (h1 : nrows < 256 ^ lb) (h2 : ncols < 256 ^ lb) (h3 : n < 256 ^ lb) (hμ : μ.bytes = csrHead lb ob n m nrows ncols ++ rest)
    (st : Storage × Storage) (ws : Storage) (T : Nat) (wgt : Bool) (cw : Codec W) :
    wReadBinCsr st ws T lb ob wgt cw μ 0 = wCsrTail st ws T lb ob wgt cw μ n m nrows ncols (csrHead lb ob n m nrows ncols).length :=
  csr_head hlb' hob h1 h2 h3 h4 hμ (wCsrTail st ws T lb ob wgt cw μ)

theorem readBinCsr_head (h1 : nrows < 256 ^ lb) (h2 : ncols < 256 ^ lb) (h3 : n < 256 ^ lb) (hμ : μ.bytes = csrHead lb ob n m nrows ncols ++ rest)
    (T : Nat) (wgt : Bool) (cw : Codec W) :
    readBinCsr T lb ob wgt cw μ 0 = csrTail T lb ob wgt cw μ n m nrows ncols (csrHead lb ob n m nrows ncols).length :=
  csr_head hlb' hob h1 h2 h3 h4 hμ (csrTail T lb ob wgt cw μ)

theorem wReadBinTensor_head (h5 : order < 256 ^ ob) (wgt : Bool) (cw : Codec W) (hcw : wgt = true → cw.size < 256)
    (hμ : μ.bytes = tensorHead lb ob wgt cw.size order m ++ rest) (s ws : Storage) (T : Nat) :
    wReadBinTensor s ws T lb ob wgt cw μ 0 = wTensorTail s ws T lb ob wgt cw μ order m (tensorHead lb ob wgt cw.size order m).length :=
  tensor_head hlb' hob h5 h4 cw hcw hμ (wTensorTail s ws T lb ob wgt cw μ)

theorem readBinTensor_head (h5 : order < 256 ^ ob) (wgt : Bool) (cw : Codec W) (hcw : wgt = true → cw.size < 256)
    (hμ : μ.bytes = tensorHead lb ob wgt cw.size order m ++ rest) (T : Nat) :
    readBinTensor T lb ob wgt cw μ 0 = tensorTail T lb ob wgt cw μ order m (tensorHead lb ob wgt cw.size order m).length :=
  tensor_head hlb' hob h5 h4 cw hcw hμ (tensorTail T lb ob wgt cw μ)

end

/-- **C93 (COO)**: with every storage, a file whose header states arrays of fewer than `2^63` bytes is loaded as in unbounded arithmetic. -/
theorem C93_coo (s ws : Storage) (T lb ob nrows ncols n m : Nat) (hlb : 0 < lb) (hlb' : lb < 256) (hob : ob < 256) (h1 : nrows < 256 ^ lb)
    (h2 : ncols < 256 ^ lb) (h3 : n < 256 ^ lb) (h4 : m < 256 ^ ob) (wgt : Bool) (cw : Codec W) (μ : Mapping) (rest : List Byte)
    (hμ : μ.bytes = cooHead lb ob nrows ncols n m ++ rest) (hm : lb * m < 2 ^ 63) (hw : wgt = true → cw.size * m < 2 ^ 63) (o : M (Coo W × Nat)) :
    (wReadBinCoo s ws T lb ob wgt cw μ 0).Out o ↔ (readBinCoo T lb ob wgt cw μ 0).Out o := by
  rw [wReadBinCoo_head hlb' hob h4 h1 h2 h3 hμ, readBinCoo_head hlb' hob h4 h1 h2 h3 hμ]
  unfold wCooTail cooTail
  rw [R.lift_bind (allocW_small s hm), R.lift_bind (allocW_small s hm), R.lift_bind (allocWeightsW_small ws hw)]
  simp only [szt_lt (Nat.lt_trans hm (by decide)), readCap_eq T μ hlb, readWeightsW_eq T μ hw]

/-- C93 (CSR) -/
theorem C93_csr (st : Storage × Storage) (ws : Storage) (T lb ob nrows ncols n m : Nat) (hlb : 0 < lb) (hob : 0 < ob) (hlb' : lb < 256) (hob' : ob < 256)
    (h1 : nrows < 256 ^ lb) (h2 : ncols < 256 ^ lb) (h3 : n < 256 ^ lb) (h4 : m < 256 ^ ob) (wgt : Bool) (cw : Codec W) (μ : Mapping) (rest : List Byte)
    (hμ : μ.bytes = csrHead lb ob n m nrows ncols ++ rest) (hn : ob * (n + 1) < 2 ^ 63) (hm : lb * m < 2 ^ 63)
    (hw : wgt = true → cw.size * m < 2 ^ 63) (o : M (Csr W × Nat)) :
    (wReadBinCsr st ws T lb ob wgt cw μ 0).Out o ↔ (readBinCsr T lb ob wgt cw μ 0).Out o := by
  rw [wReadBinCsr_head hlb' hob' h4 h1 h2 h3 hμ, readBinCsr_head hlb' hob' h4 h1 h2 h3 hμ]
  have hs : ob * succL lb n < 2 ^ 63 := by
    refine Nat.lt_of_le_of_lt (Nat.mul_le_mul_left _ ?_) hn
    unfold succL
    split
    · exact Nat.le_refl _
    · exact Nat.mod_le _ _
  unfold wCsrTail csrTail
  rw [R.lift_bind (allocW_small st.1 hm), R.lift_bind (allocWeightsW_small ws hw), R.lift_bind (allocW_small st.2 hs)]
  simp only [szt_lt (Nat.lt_trans hm (by decide)), szt_lt (Nat.lt_trans hs (by decide)), readCap_eq T μ hob, readCap_eq T μ hlb, readWeightsW_eq T μ hw]

/-- C93 (Tensor) -/
theorem C93_tensor (s ws : Storage) (T lb ob order m : Nat) (hlb : 0 < lb) (hlb' : lb < 256) (hob : ob < 256) (h1 : order < 256 ^ ob) (h4 : m < 256 ^ ob)
    (wgt : Bool) (cw : Codec W) (hcw : wgt = true → cw.size < 256) (μ : Mapping) (rest : List Byte)
    (hμ : μ.bytes = tensorHead lb ob wgt cw.size order m ++ rest) (hm : lb * (order * m) < 2 ^ 63) (hw : wgt = true → cw.size * m < 2 ^ 63)
    (o : M (Tensor W)) :
    (wReadBinTensor s ws T lb ob wgt cw μ 0).Out o ↔ (readBinTensor T lb ob wgt cw μ 0).Out o := by
  rw [wReadBinTensor_head hlb' hob h4 h1 wgt cw hcw hμ, readBinTensor_head hlb' hob h4 h1 wgt cw hcw hμ]
  have hs : lb * (inOrd (8 * ob) (order * m)) < 2 ^ 63 := Nat.lt_of_le_of_lt (Nat.mul_le_mul_left _ (inOrd_le _ _)) hm
  have hm' : szt (lb * order * m) = lb * order * m := szt_lt (by rw [Nat.mul_assoc]; exact Nat.lt_trans hm (by decide))
  unfold wTensorTail tensorTail
  rw [R.lift_bind (allocW_small s hs), R.lift_bind (allocWeightsW_small ws hw)]
  simp only [hm', readCap_eq T μ hlb, readWeightsW_eq T μ hw]

/-! ### Sizes above the limit -/

/-- **C93 is violated (COO, raw pointers)**: when the size of an array exceeds `2^64` bytes, `malloc` is called with the remainder.  A file that has the
header and these few bytes is loaded without an error, by every execution; the object states `m` entries and its arrays are shorter. -/
theorem C93_coo_violated (ws : Storage) (T lb ob nrows ncols n m : Nat) (hT : 0 < T) (hlb : 0 < lb) (hlb' : lb < 256) (hob : ob < 256)
    (h1 : nrows < 256 ^ lb) (h2 : ncols < 256 ^ lb) (h3 : n < 256 ^ lb) (h4 : m < 256 ^ ob) (cw : Codec W) (μ : Mapping) (rest : List Byte)
    (hμ : μ.bytes = cooHead lb ob nrows ncols n m ++ rest) (hm : 2 ^ 64 ≤ lb * m) (hs : lb * m % 2 ^ 64 < 2 ^ 63)
    (hr : 2 * (lb * m % 2 ^ 64) ≤ rest.length) :
    (wReadBinCoo .pointer ws T lb ob false cw μ 0).All fun r => r.1.m = m ∧ r.1.x.length < m ∧ r.1.y.length < m ∧
      load r.1.x (m - 1) = .error .oob ∧ load r.1.y (m - 1) = .error .oob := by
  rw [wReadBinCoo_head hlb' hob h4 h1 h2 h3 hμ]
  have ha : allocW .pointer lb m = .ok (szt (lb * m)) := if_pos hs
  have hlen : (cooHead lb ob nrows ncols n m).length + 2 * szt (lb * m) ≤ μ.mem.length := by
    have : μ.bytes.length ≤ μ.mem.length := by rw [Mapping.mem, List.length_append]; omega
    rw [hμ, List.length_append] at this
    unfold szt
    omega
  have hlt : szt (lb * m) / lb < m := by
    refine (Nat.div_lt_iff_lt_mul hlb).mpr ?_
    rw [Nat.mul_comm m lb]
    exact Nat.lt_of_lt_of_le (Nat.mod_lt _ (by decide)) hm
  have hoob : ∀ l : List Nat, l.length = szt (lb * m) / lb → load l (m - 1) = .error .oob := by
    intro l hl
    have : l[m - 1]? = none := List.getElem?_eq_none (by omega)
    simp only [load, this]
  unfold wCooTail
  rw [R.lift_bind ha, R.lift_bind ha, R.lift_bind (show allocWeightsW ws false cw m = .ok 0 from rfl)]
  refine R.All.bind (readCap_at hT (by omega) decLE) (fun ⟨x, p⟩ ⟨hx, hp⟩ => ?_)
  dsimp only at hx hp ⊢
  subst hp
  refine R.All.bind (readCap_at hT (by omega) decLE) (fun ⟨y, p⟩ ⟨hy, hp⟩ => ?_)
  dsimp only at hx hp hy ⊢
  refine R.All.bind (P := fun _ => True) (R.All.pure trivial) (fun ⟨w, p⟩ _ => ?_)
  exact R.All.pure ⟨rfl, by rw [hx]; exact hlt, by rw [hy]; exact hlt, hoob x hx, hoob y hy⟩

/-- **C93 is violated (CSR, raw pointers)**: likewise for the endpoints; every load succeeds, and the last endpoint is outside of the array. -/
theorem C93_csr_violated (ws : Storage) (T lb ob nrows ncols n m : Nat) (hT : 0 < T) (hlb : 0 < lb) (hlb' : lb < 256) (hob : ob < 256)
    (h1 : nrows < 256 ^ lb) (h2 : ncols < 256 ^ lb) (h3 : n < 256 ^ lb) (h4 : m < 256 ^ ob) (cw : Codec W) (μ : Mapping) (rest : List Byte)
    (hμ : μ.bytes = csrHead lb ob n m nrows ncols ++ rest) (hn : ob * (n + 1) < 2 ^ 63) (hm : 2 ^ 64 ≤ lb * m) (hs : lb * m % 2 ^ 64 < 2 ^ 63)
    (hr : ob * (n + 1) + lb * m % 2 ^ 64 ≤ rest.length) :
    (wReadBinCsr (.pointer, .pointer) ws T lb ob false cw μ 0).All fun r => r.1.m = m ∧ r.1.endpoints.length < m ∧
      load r.1.endpoints (m - 1) = .error .oob := by
  rw [wReadBinCsr_head hlb' hob h4 h1 h2 h3 hμ]
  have ha : allocW .pointer lb m = .ok (szt (lb * m)) := if_pos hs
  have hsu : ob * succL lb n ≤ ob * (n + 1) := by
    refine Nat.mul_le_mul_left _ ?_
    unfold succL
    split
    · exact Nat.le_refl _
    · exact Nat.mod_le _ _
  have hsz : szt (ob * succL lb n) = ob * succL lb n := szt_lt (by omega)
  have hlen : (csrHead lb ob n m nrows ncols).length + ob * succL lb n + szt (lb * m) ≤ μ.mem.length := by
    have : μ.bytes.length ≤ μ.mem.length := by rw [Mapping.mem, List.length_append]; omega
    rw [hμ, List.length_append] at this
    unfold szt
    omega
  have hlt : szt (lb * m) / lb < m := by
    refine (Nat.div_lt_iff_lt_mul hlb).mpr ?_
    rw [Nat.mul_comm m lb]
    exact Nat.lt_of_lt_of_le (Nat.mod_lt _ (by decide)) hm
  unfold wCsrTail
  rw [R.lift_bind ha, R.lift_bind (show allocWeightsW ws false cw m = .ok 0 from rfl), R.lift_bind (allocW_small .pointer (by omega)), hsz]
  refine R.All.bind (readCap_at hT (by omega) decLE) (fun ⟨x, p⟩ ⟨hx, hp⟩ => ?_)
  dsimp only at hx hp ⊢
  subst hp
  refine R.All.bind (readCap_at hT (by omega) decLE) (fun ⟨y, p⟩ ⟨hy, hp⟩ => ?_)
  dsimp only at hx hp hy ⊢
  refine R.All.bind (P := fun _ => True) (R.All.pure trivial) (fun ⟨w, p⟩ _ => ?_)
  refine R.All.pure ⟨rfl, by rw [hy]; exact hlt, ?_⟩
  have : y[m - 1]? = none := List.getElem?_eq_none (by omega)
  simp only [load, this]

/-- **C93 is violated (Tensor, every storage)**: `order*m` is computed in the ordinal type.  When it wraps to a number `k` of labels, a file that
has the header and these labels is loaded without an error, with vectors and shared pointers too; the tensor states `m` entries of that order, and its
array has `k` labels. -/
theorem C93_tensor_violated (s ws : Storage) (T lb order m : Nat) (hT : 0 < T) (hlb : 0 < lb) (hlb' : lb < 256) (h1 : order < 256 ^ 8) (h4 : m < 256 ^ 8)
    (cw : Codec W) (μ : Mapping) (rest : List Byte) (hμ : μ.bytes = tensorHead lb 8 false cw.size order m ++ rest) (hm : 2 ^ 64 ≤ order * m)
    (hs : lb * (order * m % 2 ^ 64) < 2 ^ 63) (hr : lb * (order * m % 2 ^ 64) ≤ rest.length) :
    (wReadBinTensor s ws T lb 8 false cw μ 0).All fun t => t.m = m ∧ t.order = order ∧ t.c.length = order * m % 2 ^ 64 ∧
      load t.c (order * m - 1) = .error .oob := by
  rw [wReadBinTensor_head hlb' (by decide) h4 h1 false cw (by simp) hμ]
  have e8 : (256 : Nat) ^ 8 = 2 ^ 64 := by decide
  have hsz : szt (lb * order * m) = lb * (order * m % 2 ^ 64) := by
    rw [Nat.mul_assoc]
    have : szt (lb * (order * m)) = szt (lb * (order * m % 2 ^ 64)) := by
      unfold szt
      rw [Nat.mul_mod_mod]
    rw [this]
    exact szt_lt (by omega)
  have hlen : (tensorHead lb 8 false cw.size order m).length + lb * (order * m % 2 ^ 64) ≤ μ.mem.length := by
    have : μ.bytes.length ≤ μ.mem.length := by rw [Mapping.mem, List.length_append]; omega
    rw [hμ, List.length_append] at this
    omega
  unfold wTensorTail
  rw [show inOrd (8 * 8) (order * m) = order * m % 2 ^ 64 from rfl, R.lift_bind (allocW_small s hs), R.lift_bind (show allocWeightsW ws false cw m = .ok 0 from rfl), hsz]
  refine R.All.bind (readCap_at hT hlen decLE) (fun ⟨x, p⟩ ⟨hx, hp⟩ => ?_)
  dsimp only at hx hp ⊢
  rw [Nat.mul_div_cancel_left _ hlb] at hx
  refine R.All.bind (P := fun _ => True) (R.All.pure trivial) (fun ⟨w, p⟩ _ => ?_)
  refine R.All.pure ⟨rfl, rfl, hx, ?_⟩
  have hlt : order * m % 2 ^ 64 < 2 ^ 64 := Nat.mod_lt _ (by decide)
  have : x[order * m - 1]? = none := List.getElem?_eq_none (by omega)
  simp only [load, this]

/-! ### Saving -/

theorem szt_le_small {a b : Nat} (h : b < 2 ^ 64) (hab : a ≤ b) : szt a = a := szt_lt (Nat.lt_of_le_of_lt hab h)

theorem saveWeightsW_eq (T : Nat) {wgt : Bool} {cw : Codec W} {m : Nat} (h : weightSize wgt cw m < 2 ^ 64) (w : List W) (f : WFile) :
    saveWeightsW T wgt cw m w f = saveWeights T wgt cw m w f := by
  have : weightSizeW wgt cw m = weightSize wgt cw m := weightSizeW_eq fun hw => by subst hw; exact h
  simp only [saveWeightsW, saveWeights, this]

theorem weightSizeW_small {wgt : Bool} {cw : Codec W} {m : Nat} (h : weightSize wgt cw m < 2 ^ 64) : weightSizeW wgt cw m = weightSize wgt cw m :=
  weightSizeW_eq fun hw => by subst hw; exact h

/-- **C93 (saving)**: an object whose file has fewer than `2^64` bytes is saved as in unbounded arithmetic. -/
theorem C93_save_coo (T lb ob : Nat) (wgt : Bool) (cw : Codec W) (c : Coo W) (hc : Spec.FitsCoo lb ob wgt cw c)
    (h : (Spec.cooFile lb ob wgt cw c).length < 2 ^ 64) (o : M (List Byte)) : (wSaveCoo T lb ob wgt cw c).Out o ↔ (saveCoo T lb ob wgt cw c).Out o := by
  rw [← cooBytes_eq, cooBytes_length cw hc] at h
  have hw : weightSize wgt cw c.m < 2 ^ 64 := by unfold cooSaveSize at h; omega
  have hm : szt (lb * c.m) = lb * c.m := szt_lt (by unfold cooSaveSize at h; omega)
  have hsz : szt (szt (cooMagic.length + 2 + (lb * 3 + ob) + szt (szt (lb * c.m) * 2)) + weightSizeW wgt cw c.m) = cooSaveSize lb ob wgt cw c := by
    rw [weightSizeW_small hw, hm]
    unfold cooSaveSize at h ⊢
    rw [szt_le_small h (a := lb * c.m * 2) (by omega), szt_le_small h (a := cooMagic.length + 2 + (lb * 3 + ob) + lb * c.m * 2) (by omega)]
    rw [szt_le_small h (by omega)]
  unfold wSaveCoo saveCoo
  rw [hsz]
  simp only [hm, saveWeightsW_eq T hw]

/-- C93 (saving, CSR) -/
theorem C93_save_csr (T lb ob : Nat) (wgt : Bool) (cw : Codec W) (c : Csr W) (hc : Spec.FitsCsr lb ob wgt cw c)
    (h : (Spec.csrFile lb ob wgt cw c).length < 2 ^ 64) (o : M (List Byte)) : (wSaveCsr T lb ob wgt cw c).Out o ↔ (saveCsr T lb ob wgt cw c).Out o := by
  rw [← csrBytes_eq, csrBytes_length cw hc] at h
  have hw : weightSize wgt cw c.m < 2 ^ 64 := by unfold csrSaveSize at h; omega
  have hm : szt (lb * c.m) = lb * c.m := szt_lt (by unfold csrSaveSize at h; omega)
  have hn : szt (ob * succL lb c.n) = ob * succL lb c.n := szt_lt (by unfold csrSaveSize at h; omega)
  have hsz : csrSaveSizeW lb ob wgt cw c = csrSaveSize lb ob wgt cw c := by
    unfold csrSaveSizeW
    rw [weightSizeW_small hw, hm, hn]
    unfold csrSaveSize at h ⊢
    rw [szt_le_small h (a := ob * succL lb c.n + lb * c.m) (by omega), szt_le_small h (a := ob * succL lb c.n + lb * c.m + weightSize wgt cw c.m) (by omega)]
    rw [szt_le_small h (by omega)]
  unfold wSaveCsr saveCsr wSaveCsrTo saveCsrTo
  rw [hsz]
  simp only [hm, hn, saveWeightsW_eq T hw]

/-- C93 (saving, Tensor) -/
theorem C93_save_tensor (T lb ob : Nat) (wgt : Bool) (cw : Codec W) (t : Tensor W) (hc : Spec.FitsTensor lb ob wgt cw t)
    (h : (Spec.tensorFile lb ob wgt cw t).length < 2 ^ 64) (o : M (List Byte)) :
    (wSaveTensor T lb ob wgt cw t).Out o ↔ (saveTensor T lb ob wgt cw t).Out o := by
  rw [← tensorBytes_eq, tensorBytes_length cw hc] at h
  have hw : weightSize wgt cw t.m < 2 ^ 64 := by unfold tensorSaveSize at h; omega
  have hcm : lb * t.m * t.order = lb * t.order * t.m := by rw [Nat.mul_assoc, Nat.mul_comm t.m, Nat.mul_assoc]
  have hmm : ∀ a b, szt (szt a * b) = szt (a * b) := fun a b => Nat.mod_mul_mod ..
  have hsz : szt (szt (tensorMagic.length + 2 + (if wgt then 1 else 0) + 2 * ob + szt (szt (lb * t.m) * t.order)) + weightSizeW wgt cw t.m) =
      tensorSaveSize lb ob wgt cw t := by
    rw [weightSizeW_small hw, hmm]
    unfold tensorSaveSize at h ⊢
    rw [szt_le_small h (a := lb * t.m * t.order) (by omega)]
    rw [szt_le_small h (a := tensorMagic.length + 2 + (if wgt then 1 else 0) + 2 * ob + lb * t.m * t.order) (by omega)]
    rw [szt_le_small h (by omega)]
  have e : szt (szt (lb * t.order) * t.m) = lb * t.order * t.m := by
    unfold tensorSaveSize at h
    rw [hmm, szt_le_small h (by omega)]
  unfold wSaveTensor saveTensor
  rw [hsz]
  simp only [e, saveWeightsW_eq T hw]

/-! ### Text -/

/-- **C93 (text)**: the regions of the threads are those of unbounded arithmetic when the size of the file times the number of threads is below `2^64`. -/
theorem C93_text (μ : Mapping) (r : Reader) (T tid : Nat) (ht : tid < T) (h : T * r.size < 2 ^ 64) : wElRegion μ r T tid = elRegion μ r T tid := by
  have h1 : szt ((tid + 1) * r.size) = (tid + 1) * r.size := szt_le_small h (Nat.mul_le_mul_right _ ht)
  have h2 : szt (tid * r.size) = tid * r.size := szt_le_small h (Nat.mul_le_mul_right _ (by omega))
  unfold wElRegion elRegion splitW
  rw [h1, h2]

/-- Of every file and every number of threads such that this product is below `2^64`, the boundaries of all the text readers. -/
theorem C93_split (size T tid : Nat) (ht : tid ≤ T) (h : T * size < 2 ^ 64) : splitW size T tid = tid * size / T := by
  unfold splitW
  rw [szt_le_small h (Nat.mul_le_mul_right _ ht)]

/-! ### The cases are not empty -/

/-- A COO file of 33 bytes that states `2^62` entries, with labels of 4 bytes and ordinals of 8 bytes. -/
def hugeCoo : List Byte := cooHead 4 8 0 0 0 (2 ^ 62)

example (cw : Codec W) (T : Nat) (hT : 0 < T) : (wReadBinCoo .pointer .pointer T 4 8 false cw ⟨hugeCoo, 4063⟩ 0).All fun r => r.1.m = 2 ^ 62 ∧ r.1.x.length < 2 ^ 62 ∧
    r.1.y.length < 2 ^ 62 ∧ load r.1.x (2 ^ 62 - 1) = .error .oob ∧ load r.1.y (2 ^ 62 - 1) = .error .oob :=
  C93_coo_violated .pointer T 4 8 0 0 0 (2 ^ 62) hT (by decide) (by decide) (by decide) (by decide) (by decide) (by decide) (by decide) cw
    ⟨hugeCoo, 4063⟩ [] (by simp [hugeCoo]) (by decide) (by decide) (by decide)

example : hugeCoo.length = 33 := by decide

/-- With vectors the same file is rejected. -/
example (cw : Codec W) (T : Nat) (o : M (Coo W × Nat)) (h : (wReadBinCoo .vector .vector T 4 8 false cw ⟨hugeCoo, 4063⟩ 0).Out o) : o = .error .error := by
  rw [wReadBinCoo_head (lb := 4) (ob := 8) (nrows := 0) (ncols := 0) (n := 0) (m := 2 ^ 62) (rest := []) (by decide) (by decide) (by decide) (by decide) (by decide) (by decide) (show (⟨hugeCoo, 4063⟩ : Mapping).bytes = cooHead 4 8 0 0 0 (2 ^ 62) ++ [] by simp [hugeCoo])] at h
  unfold wCooTail at h
  obtain ⟨o1, h1, h2⟩ := h
  have h1 : o1 = .error .error := h1
  subst h1
  exact h2

/-- A tensor file of 31 bytes that states `2^32` entries of order `2^32`. -/
def hugeTensor : List Byte := tensorHead 4 8 false 0 (2 ^ 32) (2 ^ 32)

example (cw : Codec W) (s : Storage) (T : Nat) (hT : 0 < T) : (wReadBinTensor s s T 4 8 false cw ⟨hugeTensor, 4065⟩ 0).All fun t => t.m = 2 ^ 32 ∧ t.order = 2 ^ 32 ∧
    t.c.length = 2 ^ 32 * 2 ^ 32 % 2 ^ 64 ∧ load t.c (2 ^ 32 * 2 ^ 32 - 1) = .error .oob :=
  C93_tensor_violated s s T 4 (2 ^ 32) (2 ^ 32) hT (by decide) (by decide) (by decide) (by decide) cw ⟨hugeTensor, 4065⟩ [] (by simp [hugeTensor, tensorHead])
    (by decide) (by decide) (by decide)

/-- A CSR file of 4 vertices … -/
example (cw : Codec W) (T : Nat) (hT : 0 < T) (rest : List Byte) (hr : rest.length = 40) (pad : Nat) :
    (wReadBinCsr (.pointer, .pointer) .pointer T 4 8 false cw ⟨csrHead 4 8 4 (2 ^ 62) 4 4 ++ rest, pad⟩ 0).All fun r => r.1.m = 2 ^ 62 ∧
      r.1.endpoints.length < 2 ^ 62 ∧ load r.1.endpoints (2 ^ 62 - 1) = .error .oob :=
  C93_csr_violated .pointer T 4 8 4 4 4 (2 ^ 62) hT (by decide) (by decide) (by decide) (by decide) (by decide) (by decide) (by decide) cw _ rest rfl
    (by decide) (by decide) (by decide) (by rw [hr]; decide)

/-- The file of a COO with weights. -/
example (s ws : Storage) (o : M (Coo Int × Nat)) := C93_coo s ws 3 4 8 3 4 4 3 (by decide) (by decide) (by decide) (by decide) (by decide) (by decide)
  (by decide) true (codecInt 4 (by decide)) ⟨Spec.cooFile 4 8 true (codecInt 4 (by decide)) binCoo, 7⟩ ((Spec.cooFile 4 8 true (codecInt 4 (by decide)) binCoo).drop 33)
  (by decide) (by decide) (fun _ => by decide) o

example (st : Storage × Storage) (ws : Storage) (o : M (Csr Nat × Nat)) := C93_csr st ws 3 4 8 3 3 3 3 (by decide) (by decide) (by decide) (by decide) (by decide)
  (by decide) (by decide) (by decide) true (codecNat 1 (by decide)) ⟨Spec.csrFile 4 8 true (codecNat 1 (by decide)) binCsr, 7⟩
  ((Spec.csrFile 4 8 true (codecNat 1 (by decide)) binCsr).drop 33) (by decide) (by decide) (by decide) (fun _ => by decide) o

example (s ws : Storage) (o : M (Tensor Nat)) := C93_tensor s ws 3 4 8 3 2 (by decide) (by decide) (by decide) (by decide) (by decide) true (codecNat 8 (by decide))
  (fun _ => by decide) ⟨Spec.tensorFile 4 8 true (codecNat 8 (by decide)) binTensor, 7⟩ ((Spec.tensorFile 4 8 true (codecNat 8 (by decide)) binTensor).drop 32)
  (by decide) (by decide) (fun _ => by decide) o

example (o : M (List Byte)) := C93_save_coo 3 4 8 true (codecInt 4 (by decide)) binCoo binCoo_fits (by decide) o
example (o : M (List Byte)) := C93_save_csr 3 4 8 true (codecNat 1 (by decide)) binCsr binCsr_fits (by decide) o
example (o : M (List Byte)) := C93_save_tensor 3 4 8 true (codecNat 8 (by decide)) binTensor binTensor_fits (by decide) o
example (μ : Mapping) := C93_text μ ⟨0, 1000⟩ 7 3 (by decide) (by decide)
example := C93_split 1000 7 7 (by decide) (by decide)

end Pigo
