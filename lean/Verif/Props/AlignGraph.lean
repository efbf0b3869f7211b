import Verif.Props.Align
import Verif.Props.Total

/-!
# C94 for DiGraph files

A DiGraph file is the magic string of 15 characters and two CSR files.  The fields of the first CSR start at position 28, those of the second at a position that
depends on the sizes of the first; whether the loads and saves are defined is decided by these two positions.
-/

namespace Pigo

open Spec

variable {α β W : Type}

/-- The four fields of the header of a CSR at position `p` (magic string and two bytes, then `n`, `m`, `nrows`, `ncols`) are at multiples of their sizes. -/
def HeadAligned (lb ob p : Nat) : Prop :=
  (p + 13) % lb = 0 ∧ (p + 13 + lb) % ob = 0 ∧ (p + 13 + lb + ob) % lb = 0 ∧ (p + 13 + lb + ob + lb) % lb = 0

theorem R.lift_fault {x : M α} {f : Fault} (h : x = .error f) (k : α → R β) : (R.lift x >>= k) = R.lift (.error f) := by
  funext o
  exact propext (R.lift_error h k o)

theorem aReadBinCsr_exact {T lb ob : Nat} (hlb : lb < 256) (hob : ob < 256) {wgt : Bool} (cw : Codec W) {n m nrows ncols : Nat}
    {μ : Mapping} {p : Nat} {l : List Byte} (hr : Rest μ p (csrMagic ++ (encLE 1 lb ++ (encLE 1 ob ++ (encLE lb n ++ (encLE ob m ++ (encLE lb nrows ++
      (encLE lb ncols ++ l))))))))
    (hb : p + csrMagic.length < μ.bytes.length) :
    (HeadAligned lb ob p → aReadBinCsr T lb ob wgt cw μ p = readBinCsr T lb ob wgt cw μ p) ∧
    (¬ HeadAligned lb ob p → aReadBinCsr T lb ob wgt cw μ p = R.lift (.error .oob)) := by
  have hm : csrMagic.length = 11 := rfl
  unfold aReadBinCsr readBinCsr HeadAligned
  rw [R.lift_bind (rdStr_at hr hb), R.lift_bind (rdStr_at hr hb)]
  have hr := hr.next
  rw [rdA_one, R.lift_bind (rdLE_at hr (encLE_length ..)), R.lift_bind (rdLE_at hr (encLE_length ..))]
  have hr := hr.next; rw [encLE_length] at hr
  dsimp only
  rw [rdA_one, R.lift_bind (rdLE_at hr (encLE_length ..)), R.lift_bind (rdLE_at hr (encLE_length ..))]
  have hr := hr.next; rw [encLE_length] at hr
  dsimp only
  rw [decLE_encLE (k := 1) (n := lb) (by simpa using hlb), decLE_encLE (k := 1) (n := ob) (by simpa using hob)]
  rw [R.lift_bind (sizeCheck_self lb), R.lift_bind (sizeCheck_self ob), R.lift_bind (sizeCheck_self lb), R.lift_bind (sizeCheck_self ob)]
  rw [hm, show p + 11 + 1 + 1 = p + 13 from rfl]
  rw [hm, show p + 11 + 1 + 1 = p + 13 from rfl] at hr
  by_cases h1 : (p + 13) % lb = 0
  case neg => exact ⟨fun h => absurd h.1 h1, fun _ => R.lift_fault (rdA_bad μ h1) _⟩
  rw [rdA_mul μ h1, R.lift_bind (rdLE_at hr (encLE_length ..)), R.lift_bind (rdLE_at hr (encLE_length ..))]
  have hr := hr.next; rw [encLE_length] at hr
  dsimp only
  by_cases h2 : (p + 13 + lb) % ob = 0
  case neg => exact ⟨fun h => absurd h.2.1 h2, fun _ => R.lift_fault (rdA_bad μ h2) _⟩
  rw [rdA_mul μ h2, R.lift_bind (rdLE_at hr (encLE_length ..)), R.lift_bind (rdLE_at hr (encLE_length ..))]
  have hr := hr.next; rw [encLE_length] at hr
  dsimp only
  by_cases h3 : (p + 13 + lb + ob) % lb = 0
  case neg => exact ⟨fun h => absurd h.2.2.1 h3, fun _ => R.lift_fault (rdA_bad μ h3) _⟩
  rw [rdA_mul μ h3, R.lift_bind (rdLE_at hr (encLE_length ..)), R.lift_bind (rdLE_at hr (encLE_length ..))]
  have hr := hr.next; rw [encLE_length] at hr
  dsimp only
  by_cases h4 : (p + 13 + lb + ob + lb) % lb = 0
  case neg => exact ⟨fun h => absurd h.2.2.2 h4, fun _ => R.lift_fault (rdA_bad μ h4) _⟩
  rw [rdA_mul μ h4]
  exact ⟨fun _ => rfl, fun h => absurd ⟨h1, h2, h3, h4⟩ h⟩

/-- The CSR at a position that holds one, the type being guessed. -/
theorem aReadCsr_exact (P : Params W) (hlb : P.lb < 256) (hob : P.ob < 256) (c : Csr W) (fn : List Byte) {μ : Mapping} {p : Nat} {l : List Byte}
    (hr : Rest μ p (csrBytes P.lb P.ob P.wk.wgt P.cw c ++ l)) (hm : HasAt μ p csrMagic) :
    (HeadAligned P.lb P.ob p → aReadCsr P μ fn p .auto = readCsr P μ fn p .auto) ∧
    (¬ HeadAligned P.lb P.ob p → aReadCsr P μ fn p .auto = R.lift (.error .oob)) := by
  have hu : usedType μ fn p .auto = .ok .csrBin := C45_magic _ fn p (str "PIGO-CSR-v2", .csrBin) (by simp [magics]) hm
  unfold aReadCsr readCsr
  rw [R.lift_bind hu, R.lift_bind hu, if_neg (by simp), if_pos rfl, if_neg (by simp), if_pos rfl]
  refine aReadBinCsr_exact (n := c.n) (m := c.m) (nrows := c.nrows) (ncols := c.ncols) hlb hob P.cw (l := ?_) ?_ hm.2
  rotate_left
  · simp only [csrBytes, List.append_assoc] at hr
    exact hr

theorem UpToUB.both {p p' : R α} {k k' : α → R β} (hp : UpToUB p p') (h : ∀ a, UpToUB (k a) (k' a)) : UpToUB (p >>= k) (p' >>= k') := by
  rintro o ⟨o1, h1, h2⟩
  rcases hp o1 h1 with h1 | rfl
  · cases o1 with
    | error f => exact .inl ⟨_, h1, h2⟩
    | ok a =>
      rcases h a o h2 with h | h
      · exact .inl ⟨_, h1, h⟩
      · exact .inr h
  · exact .inr h2

theorem aReadCsr_upTo (P : Params W) (μ : Mapping) (fn : List Byte) (p : Nat) (ft : FileType) : UpToUB (aReadCsr P μ fn p ft) (readCsr P μ fn p ft) := by
  unfold aReadCsr readCsr
  refine .lift fun ft => ?_
  by_cases h : ft = .matrixMarket ∨ ft = .edgeList ∨ ft = .cooBin
  · rw [if_pos h, if_pos h]
    refine .both ?_ fun ⟨c, p⟩ => .refl _
    unfold aReadCooFmt
    by_cases h' : ft = .matrixMarket ∨ ft = .edgeList
    · rw [if_pos h']; exact .refl _
    · rw [if_neg h', readCooFmt, if_neg (fun e => h' (.inl e)), if_neg (fun e => h' (.inr e))]
      exact (C94_load_sound ..).1
  · rw [if_neg h, if_neg h]
    by_cases h2 : ft = .csrBin
    · rw [if_pos h2, if_pos h2]
      exact (C94_load_sound ..).2
    · rw [if_neg h2, if_neg h2]
      exact .refl _

/-- **C94 (DiGraph, soundness)**: whatever the file contains, a load with checked alignment ends as the load without, or is undefined. -/
theorem C94_digraph_sound (P : Params W) (μ : Mapping) (fn : List Byte) (p : Nat) (o : M (DiGraph W)) (h : (aReadDiGraphBin P μ fn p).Out o) :
    (readDiGraphBin P μ fn p).Out o ∨ o = .error .oob := by
  revert o
  refine (show UpToUB _ _ from ?_)
  unfold aReadDiGraphBin readDiGraphBin
  exact .lift fun p => .both (aReadCsr_upTo _ _ _ _ _) fun ⟨_, p⟩ => .both (aReadCsr_upTo _ _ _ _ _) fun ⟨_, p⟩ => .refl _

theorem R.bind_same {p : R α} {a : α} (h : p.All (fun x => x = a)) (hany : p.Any) (k : α → R β) : (p >>= k) = k a := by
  funext o
  apply propext
  constructor
  · rintro ⟨o1, h1, h2⟩
    obtain ⟨b, rfl, rfl⟩ := h o1 h1
    exact h2
  · intro h'
    obtain ⟨o1, h1⟩ := hany
    obtain ⟨b, rfl, rfl⟩ := h o1 h1
    exact ⟨_, h1, h'⟩

/-- **C94 (DiGraph, exact)**: a saved DiGraph is loaded as without the checks if the headers of both CSRs are aligned; otherwise every load has a misaligned access. -/
theorem C94_digraph_exact [Nonempty W] (P : Params W) (hT : 0 < P.T) (hlb : P.lb < 256) (hob : P.ob < 256) (g : DiGraph W)
    (hi : FitsCsr P.lb P.ob P.wk.wgt P.cw g.inG) (fn : List Byte) (pad : Nat) (o : M (DiGraph W)) :
    (HeadAligned P.lb P.ob 15 ∧ HeadAligned P.lb P.ob (15 + csrSaveSize P.lb P.ob P.wk.wgt P.cw g.inG) →
      ((aReadDiGraphBin P ⟨digraphFile P.lb P.ob P.wk.wgt P.cw g, pad⟩ fn 0).Out o ↔
        (readDiGraphBin P ⟨digraphFile P.lb P.ob P.wk.wgt P.cw g, pad⟩ fn 0).Out o)) ∧
    (¬ (HeadAligned P.lb P.ob 15 ∧ HeadAligned P.lb P.ob (15 + csrSaveSize P.lb P.ob P.wk.wgt P.cw g.inG)) →
      ((aReadDiGraphBin P ⟨digraphFile P.lb P.ob P.wk.wgt P.cw g, pad⟩ fn 0).Out o ↔ o = .error .oob)) := by
  have hb : digraphFile P.lb P.ob P.wk.wgt P.cw g = digraphMagic ++ csrBytes P.lb P.ob P.wk.wgt P.cw g.inG ++ csrBytes P.lb P.ob P.wk.wgt P.cw g.outG := by
    rw [csrBytes_eq, csrBytes_eq]; rfl
  generalize digraphFile P.lb P.ob P.wk.wgt P.cw g = bs at hb ⊢
  have hr : Rest ⟨bs, pad⟩ 0 (bs ++ List.replicate pad 0) := rest_file
  have hl1 := csrBytes_length P.cw hi
  have hp1 := csrSaveSize_pos P.lb P.ob P.wk.wgt P.cw g.inG
  have hd : digraphMagic.length = 15 := rfl
  rw [show bs ++ List.replicate pad 0 = digraphMagic ++ (csrBytes P.lb P.ob P.wk.wgt P.cw g.inG ++ (csrBytes P.lb P.ob P.wk.wgt P.cw g.outG ++ List.replicate pad 0)) by
    rw [hb]; simp only [List.append_assoc]] at hr
  have h0 : rdStr ⟨bs, pad⟩ digraphMagic 0 = .ok 15 := rdStr_at hr (by
    show _ < bs.length
    rw [hb]; simp only [List.length_append, hl1]; omega)
  have hr1 := hr.next
  rw [hd, Nat.zero_add] at hr1
  have hm : ∀ (c : Csr W) (p : Nat) (pre post : List Byte), bs = pre ++ csrBytes P.lb P.ob P.wk.wgt P.cw c ++ post → pre.length = p →
      HasAt ⟨bs, pad⟩ p csrMagic := by
    intro c p pre post he hp
    obtain ⟨l, hl⟩ := csrBytes_magic P.lb P.ob P.wk.wgt P.cw c
    refine ⟨?_, ?_⟩
    · show _ <+: bs.drop p
      rw [he, hl, ← hp]
      simp only [List.append_assoc, List.drop_left]
      exact List.prefix_append _ _
    · show _ < bs.length
      rw [he, hl]
      simp only [List.length_append, Spec.le, List.length_map, List.length_range]
      omega
  have m1 := hm g.inG 15 digraphMagic _ hb rfl
  have hr2 := hr1.next
  have m2 := hm g.outG (15 + (csrBytes P.lb P.ob P.wk.wgt P.cw g.inG).length) (digraphMagic ++ csrBytes P.lb P.ob P.wk.wgt P.cw g.inG) []
    (by rw [hb, List.append_nil]) (by rw [List.length_append, hd])
  have e1 := aReadCsr_exact P hlb hob g.inG fn hr1 m1
  have e2 := aReadCsr_exact P hlb hob g.outG fn hr2 m2
  have hs := readCsr_at P hT hlb hob hi fn hr1 m1 (.inl rfl)
  rw [hl1] at e2 hs
  unfold aReadDiGraphBin readDiGraphBin
  rw [R.lift_bind h0, R.lift_bind h0]
  by_cases a1 : HeadAligned P.lb P.ob 15
  case neg =>
    refine ⟨fun h => absurd h.1 a1, fun _ => ?_⟩
    rw [e1.2 a1]
    exact R.lift_error rfl _ o
  rw [e1.1 a1, R.bind_same hs (csr_any P hT ..), R.bind_same hs (csr_any P hT ..)]
  dsimp only
  by_cases a2 : HeadAligned P.lb P.ob (15 + csrSaveSize P.lb P.ob P.wk.wgt P.cw g.inG)
  case neg =>
    refine ⟨fun h => absurd h.2 a2, fun _ => ?_⟩
    rw [e2.2 a2]
    exact R.lift_error rfl _ o
  rw [e2.1 a2]
  exact ⟨fun _ => .rfl, fun h => absurd ⟨a1, a2⟩ h⟩

theorem mul_even {a b : Nat} (h : a % 2 = 0 ∨ b % 2 = 0) : a * b % 2 = 0 := by
  rw [Nat.mul_mod]
  rcases h with h | h <;> rw [h] <;> simp

/-- The two headers are not both aligned, with labels of 2, 4 or 8 bytes, unless the weights have an odd size. -/
theorem not_both_aligned {lb ob : Nat} (hlb : lb = 2 ∨ lb = 4 ∨ lb = 8) (hob : ob = 1 ∨ ob = 2 ∨ ob = 4 ∨ ob = 8) {wgt : Bool} (cw : Codec W)
    (hw : wgt = false ∨ cw.size % 2 = 0) (c : Csr W) :
    ¬ (HeadAligned lb ob 15 ∧ HeadAligned lb ob (15 + csrSaveSize lb ob wgt cw c)) := by
  rintro ⟨⟨_, _, a3, _⟩, ⟨b1, _, _, _⟩⟩
  have hws : weightSize wgt cw c.m % 2 = 0 := by
    unfold weightSize
    split
    · rcases hw with rfl | hw
      · simp at *
      · exact mul_even (.inl hw)
    · rfl
  have h2 : ∀ x, x % lb = 0 → x % 2 = 0 := by
    intro x hx
    rcases hlb with rfl | rfl | rfl <;> omega
  have a3 := h2 _ a3
  have b1 := h2 _ b1
  have hl2 : lb % 2 = 0 := by rcases hlb with rfl | rfl | rfl <;> rfl
  have ho2 : ob % 2 = 0 := by omega
  have hx := mul_even (a := ob) (b := succL lb c.n) (.inl ho2)
  have hy := mul_even (a := lb) (b := c.m) (.inl hl2)
  have hm : csrMagic.length = 11 := rfl
  unfold csrSaveSize at b1
  omega

/-- **C94 is violated (DiGraph)**: every load of every saved DiGraph with labels of 2, 4 or 8 bytes, without weights or with weights of even size, has a misaligned
access: in the first header, or in the second, which starts at an odd position. -/
theorem C94_digraph_violated [Nonempty W] (P : Params W) (hT : 0 < P.T) (hlb : P.lb = 2 ∨ P.lb = 4 ∨ P.lb = 8) (hob : P.ob = 1 ∨ P.ob = 2 ∨ P.ob = 4 ∨ P.ob = 8)
    (hw : P.wk.wgt = false ∨ P.cw.size % 2 = 0) (g : DiGraph W) (hi : FitsCsr P.lb P.ob P.wk.wgt P.cw g.inG) (fn : List Byte) (pad : Nat) (o : M (DiGraph W)) :
    (aReadDiGraphBin P ⟨digraphFile P.lb P.ob P.wk.wgt P.cw g, pad⟩ fn 0).Out o ↔ o = .error .oob :=
  (C94_digraph_exact P hT (by omega) (by omega) g hi fn pad o).2 (not_both_aligned hlb hob P.cw hw g.inG)

/-! ### Saving -/

theorem aSaveCsrTo_exact {T lb ob : Nat} {wgt : Bool} (cw : Codec W) (c : Csr W) {f : WFile} {size : Nat} {P : List Byte} (hf : Wrote f size P)
    (hs : P.length + csrSaveSize lb ob wgt cw c ≤ size) :
    (HeadAligned lb ob P.length → aSaveCsrTo T lb ob wgt cw c f = saveCsrTo T lb ob wgt cw c f) ∧
    (¬ HeadAligned lb ob P.length → aSaveCsrTo T lb ob wgt cw c f = R.lift (.error .oob)) := by
  have hm : csrMagic.length = 11 := rfl
  have hsz : P.length + 13 + 3 * lb + ob ≤ size := by unfold csrSaveSize at hs; omega
  unfold aSaveCsrTo saveCsrTo HeadAligned
  obtain ⟨f, h, hw⟩ := wBytes_ok hf csrMagic (by omega)
  rw [R.lift_bind h, R.lift_bind h, wA_one]
  obtain ⟨f, h, hw⟩ := wBytes_ok hw (encLE 1 lb) (by simp only [List.length_append, encLE_length, hm]; omega)
  rw [R.lift_bind h, R.lift_bind h, wA_one]
  obtain ⟨f, h, hw⟩ := wBytes_ok hw (encLE 1 ob) (by simp only [List.length_append, encLE_length, hm]; omega)
  rw [R.lift_bind h, R.lift_bind h]
  have hp : f.fp = P.length + 13 := by rw [hw.fp]; simp only [List.length_append, encLE_length, hm]
  by_cases h1 : (P.length + 13) % lb = 0
  case neg => exact ⟨fun h => absurd h.1 h1, fun _ => R.lift_fault (wA_bad _ (by rw [hp]; exact h1)) _⟩
  rw [wA_mul _ (by rw [hp]; exact h1)]
  obtain ⟨f, h, hw⟩ := wBytes_ok hw (encLE lb c.n) (by simp only [List.length_append, encLE_length, hm]; omega)
  rw [R.lift_bind h, R.lift_bind h]
  have hp : f.fp = P.length + 13 + lb := by rw [hw.fp]; simp only [List.length_append, encLE_length, hm]
  by_cases h2 : (P.length + 13 + lb) % ob = 0
  case neg => exact ⟨fun h => absurd h.2.1 h2, fun _ => R.lift_fault (wA_bad _ (by rw [hp]; exact h2)) _⟩
  rw [wA_mul _ (by rw [hp]; exact h2)]
  obtain ⟨f, h, hw⟩ := wBytes_ok hw (encLE ob c.m) (by simp only [List.length_append, encLE_length, hm]; omega)
  rw [R.lift_bind h, R.lift_bind h]
  have hp : f.fp = P.length + 13 + lb + ob := by rw [hw.fp]; simp only [List.length_append, encLE_length, hm]
  by_cases h3 : (P.length + 13 + lb + ob) % lb = 0
  case neg => exact ⟨fun h => absurd h.2.2.1 h3, fun _ => R.lift_fault (wA_bad _ (by rw [hp]; exact h3)) _⟩
  rw [wA_mul _ (by rw [hp]; exact h3)]
  obtain ⟨f, h, hw⟩ := wBytes_ok hw (encLE lb c.nrows) (by simp only [List.length_append, encLE_length, hm]; omega)
  rw [R.lift_bind h, R.lift_bind h]
  have hp : f.fp = P.length + 13 + lb + ob + lb := by rw [hw.fp]; simp only [List.length_append, encLE_length, hm]
  by_cases h4 : (P.length + 13 + lb + ob + lb) % lb = 0
  case neg => exact ⟨fun h => absurd h.2.2.2 h4, fun _ => R.lift_fault (wA_bad _ (by rw [hp]; exact h4)) _⟩
  rw [wA_mul _ (by rw [hp]; exact h4)]
  exact ⟨fun _ => rfl, fun h => absurd ⟨h1, h2, h3, h4⟩ h⟩

theorem R.bind_congr_ok {p : R α} {k k' : α → R β} {Q : α → Prop} (h : p.All Q) (hk : ∀ a, Q a → k a = k' a) : (p >>= k) = (p >>= k') := by
  funext o
  apply propext
  constructor
  · rintro ⟨o1, h1, h2⟩
    obtain ⟨b, rfl, hb⟩ := h o1 h1
    exact ⟨_, h1, by show (k' b).Out o; rw [← hk b hb]; exact h2⟩
  · rintro ⟨o1, h1, h2⟩
    obtain ⟨b, rfl, hb⟩ := h o1 h1
    exact ⟨_, h1, by show (k b).Out o; rw [hk b hb]; exact h2⟩

theorem R.bind_const {p : R α} (hp : p.Any) {Q : α → Prop} (h : p.All Q) {k : α → R β} {r : R β} (hk : ∀ a, Q a → k a = r) : (p >>= k) = r := by
  funext o
  apply propext
  constructor
  · rintro ⟨o1, h1, h2⟩
    obtain ⟨b, rfl, hb⟩ := h o1 h1
    rw [← hk b hb]; exact (h2 : (k b).Out o)
  · intro h'
    obtain ⟨o1, h1⟩ := hp
    obtain ⟨b, rfl, hb⟩ := h o1 h1
    exact ⟨_, h1, by show (k b).Out o; rw [hk b hb]; exact h'⟩

theorem saveCsrTo_any (T lb ob : Nat) (wgt : Bool) (cw : Codec W) (c : Csr W) (f : WFile) : (saveCsrTo T lb ob wgt cw c f).Any := by
  unfold saveCsrTo
  repeat' first | exact R.Any.pure _ | exact saveWeights_any .. | refine R.Any.bind (R.Any.lift _) (fun _ => ?_) | refine R.Any.bind (parWrite_any ..) (fun _ => ?_)

/-- **C94 (DiGraph, saving, exact)**. -/
theorem C94_save_digraph_exact (T lb ob : Nat) (hT : 0 < T) (wgt : Bool) (cw : Codec W) (g : DiGraph W) (hi : FitsCsr lb ob wgt cw g.inG) (o : M (List Byte)) :
    (HeadAligned lb ob 15 ∧ HeadAligned lb ob (15 + csrSaveSize lb ob wgt cw g.inG) →
      ((aSaveDiGraph T lb ob wgt cw g).Out o ↔ (saveDiGraph T lb ob wgt cw g).Out o)) ∧
    (¬ (HeadAligned lb ob 15 ∧ HeadAligned lb ob (15 + csrSaveSize lb ob wgt cw g.inG)) →
      ((aSaveDiGraph T lb ob wgt cw g).Out o ↔ o = .error .oob)) := by
  have hd : digraphMagic.length = 15 := rfl
  have hl1 := csrBytes_length cw hi
  have hp1 := csrSaveSize_pos lb ob wgt cw g.inG
  unfold aSaveDiGraph saveDiGraph
  obtain ⟨f, h, hw⟩ := openW_ok (size := digraphMagic.length + csrSaveSize lb ob wgt cw g.inG + csrSaveSize lb ob wgt cw g.outG) (by omega)
  rw [R.lift_bind h, R.lift_bind h]
  obtain ⟨f, h, hw⟩ := wBytes_ok hw digraphMagic (by rw [List.length_nil]; omega)
  rw [R.lift_bind h, R.lift_bind h]
  rw [List.nil_append] at hw
  have e1 := aSaveCsrTo_exact (T := T) (lb := lb) (ob := ob) (wgt := wgt) cw g.inG hw (by omega)
  rw [hd] at e1
  by_cases a1 : HeadAligned lb ob 15
  case neg =>
    refine ⟨fun h => absurd h.1 a1, fun _ => ?_⟩
    rw [e1.2 a1]
    exact R.lift_error rfl _ o
  rw [e1.1 a1]
  have hall := saveCsrTo_all (P := digraphMagic) hT cw hi (by simpa using hw) (by omega)
  have e2 := fun (f' : WFile) (hf' : Wrote f' (digraphMagic.length + csrSaveSize lb ob wgt cw g.inG + csrSaveSize lb ob wgt cw g.outG)
      (digraphMagic ++ csrBytes lb ob wgt cw g.inG)) => aSaveCsrTo_exact (T := T) (lb := lb) (ob := ob) (wgt := wgt) cw g.outG hf' (by
    rw [List.length_append, hl1]; omega)
  simp only [List.length_append, hl1, hd] at e2
  by_cases a2 : HeadAligned lb ob (15 + csrSaveSize lb ob wgt cw g.inG)
  case neg =>
    refine ⟨fun h => absurd h.2 a2, fun _ => ?_⟩
    rw [R.bind_const (saveCsrTo_any ..) hall (r := R.lift (.error .oob)) fun f' hf' => by
      rw [(e2 f' hf').2 a2]
      exact R.lift_fault rfl _]
    exact Iff.rfl
  refine ⟨fun _ => ?_, fun h => absurd ⟨a1, a2⟩ h⟩
  rw [R.bind_congr_ok hall fun f' hf' => by rw [(e2 f' hf').1 a2]]

/-- **C94 is violated (DiGraph, saving)** -/
theorem C94_save_digraph_violated (T lb ob : Nat) (hT : 0 < T) (hlb : lb = 2 ∨ lb = 4 ∨ lb = 8) (hob : ob = 1 ∨ ob = 2 ∨ ob = 4 ∨ ob = 8) (wgt : Bool)
    (cw : Codec W) (hw : wgt = false ∨ cw.size % 2 = 0) (g : DiGraph W) (hi : FitsCsr lb ob wgt cw g.inG) (o : M (List Byte)) :
    (aSaveDiGraph T lb ob wgt cw g).Out o ↔ o = .error .oob :=
  (C94_save_digraph_exact T lb ob hT wgt cw g hi o).2 (not_both_aligned hlb hob cw hw g.inG)

/-! ### The cases are not empty -/

theorem binCsr_fits2 : Spec.FitsCsr 4 8 true (codecNat 2 (by decide)) binCsr := by
  refine ⟨by decide, by decide, ⟨by decide, ?_⟩, by decide, by decide, by decide, by decide, by decide⟩
  intro v hv
  simp only [binCsr, List.mem_cons, List.not_mem_nil, or_false] at hv
  rcases hv with rfl | rfl | rfl <;> (show _ < _; decide)

/-- Labels of 4, ordinals of 8, weights of 2 bytes. -/
example (o : M (List Byte)) : (aSaveDiGraph 3 4 8 true (codecNat 2 (by decide)) ⟨binCsr, binCsr⟩).Out o ↔ o = .error .oob :=
  C94_save_digraph_violated 3 4 8 (by decide) (.inr (.inl rfl)) (by decide) true _ (.inr rfl) _ binCsr_fits2 o

/-- With weights of one byte and 3 entries both headers are aligned: the second starts at position `15 + 84`. -/
example (o : M (List Byte)) : (aSaveDiGraph 3 4 8 true (codecNat 1 (by decide)) ⟨binCsr, binCsr⟩).Out o ↔
    (saveDiGraph 3 4 8 true (codecNat 1 (by decide)) ⟨binCsr, binCsr⟩).Out o :=
  (C94_save_digraph_exact 3 4 8 (by decide) true _ ⟨binCsr, binCsr⟩ binCsr_fits o).1 (by unfold HeadAligned; decide)

end Pigo
