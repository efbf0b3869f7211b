import Verif.Props.Cut
import Verif.Props.AlignGraph
import Verif.Lemmas.Throw

/-!
# C43 for DiGraph files

What a DiGraph file that is shorter than its headers promise is loaded as.  The second half starts where the header of the first says; its type is guessed again, so
that a file which ends there is taken for an empty edge list.
-/

namespace Pigo

open Spec

variable {W α β : Type}

/-! ## A file seen from a position on -/

/-- `ν` is what `μ` looks like from `q` on. -/
structure ShiftTo (μ ν : Mapping) (q : Nat) : Prop where
  get : ∀ i, μ.get (q + i) = ν.get i
  len : μ.bytes.length = q + ν.bytes.length

theorem shiftTo_drop {μ : Mapping} {q : Nat} (h : q ≤ μ.bytes.length) : ShiftTo μ ⟨μ.bytes.drop q, μ.pad⟩ q := by
  constructor
  · intro i
    unfold Mapping.get
    simp only [List.getElem?_drop, List.length_drop]
    cases μ.bytes[q + i]? with
    | some b => rfl
    | none =>
      simp only
      have : (q + i < μ.bytes.length + μ.pad) = (i < μ.bytes.length - q + μ.pad) := by
        apply propext; omega
      simp only [this]
  · simp only [List.length_drop]; omega

section
variable {μ ν : Mapping} {q : Nat} (s : ShiftTo μ ν q)
include s

theorem ShiftTo.getBytes : ∀ k p, getBytes μ k (q + p) = Pigo.getBytes ν k p
  | 0, _ => rfl
  | k + 1, p => by
    rw [Pigo.getBytes, Pigo.getBytes, s.get, Nat.add_assoc, ShiftTo.getBytes k]

theorem ShiftTo.rdLE (k p : Nat) : rdLE μ k (q + p) = (Pigo.rdLE ν k p).map (fun r => (r.1, q + r.2)) := by
  rw [Pigo.rdLE, Pigo.rdLE, s.getBytes]
  cases Pigo.getBytes ν k p with
  | error f => rfl
  | ok b => simp only [ok_bind, Except.map, Nat.add_assoc]

theorem ShiftTo.rdStr (t : List Byte) (p : Nat) : rdStr μ t (q + p) = (Pigo.rdStr ν t p).map (fun r => q + r) := by
  have : atStr μ t ⟨q + p, μ.bytes.length⟩ = atStr ν t ⟨p, ν.bytes.length⟩ := by
    unfold atStr
    simp only [s.getBytes, s.len]
    have : (q + p + t.length ≥ q + ν.bytes.length) = (p + t.length ≥ ν.bytes.length) := by
      apply propext; omega
    simp only [this]
  rw [Pigo.rdStr, Pigo.rdStr, this]
  cases atStr ν t ⟨p, ν.bytes.length⟩ with
  | error f => rfl
  | ok b => cases b <;> simp [Except.map, ok_bind, Nat.add_assoc]

theorem ShiftTo.parRead (T : Nat) (dst : List Byte) (n p : Nat) :
    parRead T μ dst n (q + p) = (Pigo.parRead T ν dst n p >>= fun r => pure (r.1, q + r.2)) := by
  unfold Pigo.parRead
  have : (fun i => μ.get (q + p + i)) = fun i => ν.get (p + i) := by
    funext i; rw [Nat.add_assoc, s.get]
  rw [this, R.bind_assoc']
  congr 1; funext threads
  rw [R.bind_assoc']
  congr 1; funext b
  rw [R.pure_bind', Nat.add_assoc]

theorem ShiftTo.readArr (T k : Nat) (dec : List Byte → α) (n b p : Nat) :
    readArr T μ k dec n b (q + p) = (Pigo.readArr T ν k dec n b p >>= fun r => pure (r.1, q + r.2)) := by
  unfold Pigo.readArr
  rw [R.bind_assoc']
  congr 1; funext junk
  rw [s.parRead, R.bind_assoc', R.bind_assoc']
  congr 1; funext r
  rw [R.pure_bind', R.pure_bind']

theorem ShiftTo.readWeights (T : Nat) (wgt : Bool) (cw : Codec W) (m p : Nat) :
    readWeights T μ wgt cw m (q + p) = (Pigo.readWeights T ν wgt cw m p >>= fun r => pure (r.1, q + r.2)) := by
  unfold Pigo.readWeights
  split
  · exact s.readArr ..
  · rw [R.pure_bind']

end

theorem R.lift_map_bind (m : M α) (f : α → β) {γ : Type} (k : β → R γ) : (R.lift (m.map f) >>= k) = (R.lift m >>= fun a => k (f a)) := by
  cases m with
  | error e =>
    funext o
    apply propext
    constructor
    · rintro ⟨o1, rfl, h⟩; exact ⟨_, rfl, h⟩
    · rintro ⟨o1, rfl, h⟩; exact ⟨_, rfl, h⟩
  | ok a =>
    rw [show (Except.ok a : M α).map f = .ok (f a) from rfl, R.lift_bind rfl, R.lift_bind rfl]

/-- A CSR is read at position `q + p` as at position `p` of the file without its first `q` bytes. -/
theorem ShiftTo.readBinCsr {μ ν : Mapping} {q : Nat} (s : ShiftTo μ ν q) (T lb ob : Nat) (wgt : Bool) (cw : Codec W) (p : Nat) :
    readBinCsr T lb ob wgt cw μ (q + p) = (Pigo.readBinCsr T lb ob wgt cw ν p >>= fun r => pure (r.1, q + r.2)) := by
  unfold Pigo.readBinCsr
  simp only [R.bind_assoc']
  rw [s.rdStr, R.lift_map_bind]
  congr 1; funext p
  rw [s.rdLE, R.lift_map_bind]
  congr 1; funext ⟨ls, p⟩
  dsimp only
  rw [s.rdLE, R.lift_map_bind]
  congr 1; funext ⟨os, p⟩
  dsimp only
  congr 1; funext _
  congr 1; funext _
  rw [s.rdLE, R.lift_map_bind]
  congr 1; funext ⟨n, p⟩
  dsimp only
  rw [s.rdLE, R.lift_map_bind]
  congr 1; funext ⟨m, p⟩
  dsimp only
  rw [s.rdLE, R.lift_map_bind]
  congr 1; funext ⟨nrows, p⟩
  dsimp only
  rw [s.rdLE, R.lift_map_bind]
  congr 1; funext ⟨ncols, p⟩
  dsimp only
  rw [s.readArr, R.bind_assoc']
  congr 1; funext ⟨offs, p⟩
  rw [R.pure_bind']
  dsimp only
  rw [s.readArr, R.bind_assoc']
  congr 1; funext ⟨ends, p⟩
  rw [R.pure_bind']
  dsimp only
  rw [s.readWeights, R.bind_assoc']
  congr 1; funext ⟨ws, p⟩
  rw [R.pure_bind', R.pure_bind']

/-! ## One half -/

theorem readBinCsr_slice_pos {T : Nat} (hT : 0 < T) (lb ob : Byte) {wgt : Bool} (cw : Codec W) {μ : Mapping} {rest : List Byte}
    (hb : μ.bytes = csrMagic ++ lb :: ob :: rest) (hl : csrEndM lb.toNat ob.toNat wgt cw μ.mem ≤ μ.mem.length) :
    (readBinCsr T lb.toNat ob.toNat wgt cw μ 0).All (fun r => r = (csrIn lb.toNat ob.toNat wgt cw μ.mem, csrEndM lb.toNat ob.toNat wgt cw μ.mem)) := by
  obtain ⟨e1, e2⟩ := hdr_bytes hb
  have hmg : HasAt μ 0 csrMagic := hasAt_zero (t := lb :: ob :: rest) hb (by simp)
  have l11 : csrMagic.length = 11 := by decide
  rw [l11] at e1 e2
  unfold readBinCsr
  refine R.All.step (rdStr_good hmg) ?_
  rw [l11]
  refine R.All.step (rdByte (by rw [Nat.zero_add]; exact e1)) (R.All.step (rdByte (by rw [Nat.zero_add]; exact e2)) ?_)
  refine R.All.step (a := ()) (if_neg (fun h => h rfl)) (R.All.step (a := ()) (if_neg (fun h => h rfl)) ?_)
  simp only [Nat.zero_add, Nat.reduceAdd]
  unfold csrEndM at hl
  refine R.All.step (rdLE_slice (by omega)) (R.All.step (rdLE_slice (by omega)) (R.All.step (rdLE_slice (by omega)) (R.All.step (rdLE_slice (by omega)) ?_)))
  dsimp only
  refine R.All.same (readArr_slice hT (by omega) decLE) ?_
  refine R.All.same (readArr_slice hT (by omega) decLE) ?_
  refine R.All.same (readWeights_slice hT (by omega)) ?_
  exact R.All.pure rfl

theorem hasAt_drop {μ : Mapping} {q : Nat} {s t : List Byte} (h : μ.bytes.drop q = s ++ t) (ht : t ≠ []) : HasAt μ q s := by
  refine ⟨by rw [h]; exact List.prefix_append _ _, ?_⟩
  have := congrArg List.length h
  simp only [List.length_drop, List.length_append] at this
  have := List.length_pos_iff.mpr ht
  omega

theorem readCsr_half (P : Params W) {μ : Mapping} {q : Nat} {lb ob : Byte} {rest : List Byte} (h : μ.bytes.drop q = csrMagic ++ lb :: ob :: rest) (fn : List Byte) :
    readCsr P μ fn q .auto = readBinCsr P.T P.lb P.ob P.wk.wgt P.cw μ q := by
  have hty : usedType μ fn q .auto = .ok .csrBin := by
    unfold usedType
    rw [if_pos rfl]
    exact C45_magic _ fn q (str "PIGO-CSR-v2", .csrBin) (by simp [magics]) (hasAt_drop h (by simp))
  unfold readCsr
  rw [R.lift_bind hty, if_neg (by simp), if_pos rfl]

/-- A half of a DiGraph file that starts with the header of a CSR. -/
theorem half_exact (P : Params W) (hT : 0 < P.T) (lb ob : Byte) (hlb : P.lb = lb.toNat) (hob : P.ob = ob.toNat) (fn : List Byte) (μ : Mapping) (q : Nat)
    (rest : List Byte) (h : μ.bytes.drop q = str "PIGO-CSR-v2" ++ lb :: ob :: rest) :
    (csrEnd P.lb P.ob P.wk.wgt P.cw (mapped (μ.bytes.drop q) μ.pad) ≤ (μ.bytes.drop q).length + μ.pad →
      (readCsr P μ fn q .auto).All (fun r => r = (csrAt P.lb P.ob P.wk.wgt P.cw (mapped (μ.bytes.drop q) μ.pad),
        q + csrEnd P.lb P.ob P.wk.wgt P.cw (mapped (μ.bytes.drop q) μ.pad)))) ∧
    ((μ.bytes.drop q).length + μ.pad < csrEnd P.lb P.ob P.wk.wgt P.cw (mapped (μ.bytes.drop q) μ.pad) → (readCsr P μ fn q .auto).Outside) := by
  have hq : q ≤ μ.bytes.length := by
    have := congrArg List.length h
    simp only [List.length_drop, List.length_append, List.length_cons] at this
    omega
  have hs := shiftTo_drop hq
  have hmem : (Mapping.mem ⟨μ.bytes.drop q, μ.pad⟩).length = (μ.bytes.drop q).length + μ.pad := Mapping.mem_length _
  rw [readCsr_half P h, show q = q + 0 from rfl, hs.readBinCsr, show mapped (μ.bytes.drop (q + 0)) μ.pad = Mapping.mem ⟨μ.bytes.drop q, μ.pad⟩ from rfl,
    csrEnd_eq, csrAt_eq, hlb, hob]
  simp only [Nat.add_zero]
  rw [← hmem]
  constructor
  · intro hl
    refine R.All.bind (readBinCsr_slice_pos hT lb ob P.cw (μ := ⟨μ.bytes.drop q, μ.pad⟩) h hl) (fun r hr => ?_)
    subst hr
    exact R.All.pure rfl
  · intro hl
    exact R.Outside.bind_left (readBinCsr_outside hT lb ob P.cw (μ := ⟨μ.bytes.drop q, μ.pad⟩) h hl)

/-- The graph of an edge list without entries: one vertex, no edge. -/
def NoEdges (c : Csr W) : Prop := c.n = 1 ∧ c.m = 0 ∧ c.nrows = 1 ∧ c.ncols = 1 ∧ c.offsets = [0, 0] ∧ c.endpoints = []

theorem elRegion_past {μ : Mapping} {d e : Nat} (h : e ≤ d) (T tid : Nat) : elRegion μ ⟨d, e⟩ T tid = elRegion μ ⟨e, e⟩ T tid := by
  have hz : (Reader.size ⟨d, e⟩) = 0 := by simp [Reader.size]; omega
  have hz' : (Reader.size ⟨e, e⟩) = 0 := by simp [Reader.size]
  have hp : (⟨d, e⟩ : Reader).plus 0 = (⟨e, e⟩ : Reader).plus 0 := by
    simp only [Reader.plus, Nat.add_zero]
    congr 1
    split <;> split <;> omega
  unfold elRegion
  simp only [hz, hz', Nat.mul_zero, Nat.zero_div, hp]

theorem readEl_past {μ : Mapping} {d e : Nat} (h : e ≤ d) (lw ow : Nat) (cfg : Cfg) (wk : WKind W) (T : Nat) (out : M (Coo W)) :
    ReadEl μ lw ow cfg wk T ⟨d, e⟩ out ↔ ReadEl μ lw ow cfg wk T ⟨e, e⟩ out := by
  have : elRegion μ ⟨d, e⟩ T = elRegion μ ⟨e, e⟩ T := funext (elRegion_past h T)
  unfold ReadEl readElPlan
  rw [this]

theorem not_pigo {μ : Mapping} {q : Nat} (h : μ.bytes.length ≤ q + 4) : ¬ HasAt μ q (str "PIGO") := by
  intro h'
  have := h'.2
  have l4 : (str "PIGO").length = 4 := by decide
  omega

/-- Bytes without the name of a format and without digits are a graph of one vertex. -/
theorem readCsr_nothing (P : Params W) (hT : 0 < P.T) (hlb : 0 < P.lb) (hob : 0 < P.ob) (μ : Mapping) (hpad : 0 < μ.pad) (fn : List Byte) (q : Nat)
    (h1 : ¬ str ".mtx" <:+ fn) (h2 : ¬ str ".graph" <:+ fn) (hng : ¬ HasAt μ q (str "PIGO")) (hnd : ∀ c ∈ μ.bytes.drop q, isDigit c = false) :
    (readCsr P μ fn q .auto).All (fun r => NoEdges r.1 ∧ r.2 = q) := by
  have hty : usedType μ fn q .auto = .ok .edgeList := by
    unfold usedType
    rw [if_pos rfl, C45_by_name _ _ _ hng, if_neg h1, if_neg h2]
  unfold readCsr
  refine R.All.step hty ?_
  rw [if_pos (by simp)]
  refine R.All.bind (P := fun r => r.1 = cooOf (8 * P.lb) {} P.wk.wgt [] ∧ r.2 = q) ?_ ?_
  · unfold readCooFmt
    rw [if_neg (by simp), if_pos rfl]
    refine R.All.bind (P := fun r => r = cooOf (8 * P.lb) {} P.wk.wgt []) ?_ (fun r hr => R.All.pure ⟨hr, rfl⟩)
    intro o ho
    refine ⟨_, ?_, rfl⟩
    have hv : View μ μ.bytes.length (μ.bytes.drop q) := ⟨by rw [List.take_length]; exact List.drop_suffix _ _, Nat.le_refl _⟩
    refine readEl_no_digits hv (by unfold Readable; omega) hnd _ (8 * P.ob) _ P.wk hT o ?_
    have ho' : ReadEl μ (8 * P.lb) (8 * P.ob) {} P.wk P.T ⟨q, μ.bytes.length⟩ o := ho
    by_cases hq : q ≤ μ.bytes.length
    · have : rd μ.bytes.length (μ.bytes.drop q) = ⟨q, μ.bytes.length⟩ := by
        unfold rd; rw [List.length_drop]; congr 1; omega
      rw [this]; exact ho'
    · have : rd μ.bytes.length (μ.bytes.drop q) = ⟨μ.bytes.length, μ.bytes.length⟩ := by
        unfold rd; rw [List.length_drop]; congr 1; omega
      rw [this]
      exact (readEl_past (by omega) _ _ _ _ _ _).mp ho'
  · rintro ⟨c, p⟩ ⟨hc, hp⟩
    simp only at hc hp
    subst hc hp
    have h8 : 1 % 2 ^ (8 * P.lb) = 1 := Nat.mod_eq_of_lt (Nat.one_lt_two_pow (by omega))
    have hc : (cooOf (8 * P.lb) {} P.wk.wgt ([] : List (Nat × Nat × W))) = { x := [], y := [], w := [], n := 1, m := 0, nrows := 1, ncols := 1 } := by
      simp [cooOf, prims, Spec.maxOf, h8]
    have hh : Holds (cooOf (8 * P.lb) {} P.wk.wgt ([] : List (Nat × Nat × W))) P.wk.wgt [] := cooOf_holds ..
    rw [hc] at hh ⊢
    refine R.All.bind (convertCoo_all (lw := 8 * P.lb) (ow := 8 * P.ob) hT hh (by simp) (Nat.pow_pos (by decide)) ?_) ?_
    · by_cases h : 8 * P.lb < 32
      · exact .inl h
      · right
        show 1 + 1 < 2 ^ (8 * P.lb)
        exact Nat.lt_of_lt_of_le (by decide) (Nat.pow_le_pow_right (by decide) (by omega : 2 ≤ 8 * P.lb))
    · rintro r ⟨hm, hr, hcl, es', hp, _, hcsr⟩
      have : es' = [] := hp.eq_nil
      subst this
      exact R.All.pure ⟨⟨by rw [hcsr.n]; rfl, hm, hr, hcl, by rw [hcsr.offsets]; rfl, by rw [hcsr.endpoints]; rfl⟩, rfl⟩

/-! ## The properties -/

/-- **C43 (DiGraph)**, what holds for every file that begins with the names of a DiGraph and a CSR and the sizes of the types it is loaded with.  The bytes of the first
graph end where its header says.  If that is outside of the mapping, so is every load.  Else the second graph starts there: if there is another header, the load
gives what is in the mapped bytes or reads outside of the mapping; and if the file ends there, or before, the load gives a second graph without edges. -/
theorem C43_digraph_exact [Nonempty W] (P : Params W) (hT : 0 < P.T) (lb ob : Byte) (hlb : P.lb = lb.toNat) (hob : P.ob = ob.toNat) (rest : List Byte) (fn : List Byte)
    (pad : Nat) :
    let first := str "PIGO-CSR-v2" ++ lb :: ob :: rest
    let file := str "PIGO-DiGraph-v1" ++ first
    let mem := mapped first pad
    let e := csrEnd P.lb P.ob P.wk.wgt P.cw mem
    let load := readDiGraphBin P ⟨file, pad⟩ fn 0
    (first.length + pad < e → load.Out (.error .oob) ∧ ∀ out, load.Out out → out = .error .oob) ∧
    (e ≤ first.length + pad →
      (∀ rest', first.drop e = str "PIGO-CSR-v2" ++ lb :: ob :: rest' →
        let mem' := mapped (first.drop e) pad
        let e' := csrEnd P.lb P.ob P.wk.wgt P.cw mem'
        (e' ≤ (first.drop e).length + pad → load.All (fun g => g = ⟨csrAt P.lb P.ob P.wk.wgt P.cw mem, csrAt P.lb P.ob P.wk.wgt P.cw mem'⟩)) ∧
        ((first.drop e).length + pad < e' → load.Out (.error .oob) ∧ ∀ out, load.Out out → out = .error .oob)) ∧
      (first.length ≤ e → 0 < pad → 0 < P.lb → 0 < P.ob → ¬ str ".mtx" <:+ fn → ¬ str ".graph" <:+ fn →
        load.All (fun g => g.inG = csrAt P.lb P.ob P.wk.wgt P.cw mem ∧ NoEdges g.outG))) := by
  intro first file mem e load
  have hany : load.Any := digraphBin_any P hT ..
  have out : load.Outside → load.Out (.error .oob) ∧ ∀ out, load.Out out → out = .error .oob := fun ho => by
    obtain ⟨o, h1⟩ := hany
    exact ⟨ho o h1 ▸ h1, ho⟩
  have hd : digraphMagic.length = 15 := by decide
  have hdrop : (file.drop 15) = first := rfl
  have hstr : rdStr ⟨file, pad⟩ digraphMagic 0 = .ok 15 := by
    rw [rdStr_good (hasAt_zero (t := first) rfl (by simp [first]))]
    rfl
  have hx := half_exact P hT lb ob hlb hob fn ⟨file, pad⟩ 15 rest hdrop
  rw [show (Mapping.bytes ⟨file, pad⟩).drop 15 = first from hdrop] at hx
  refine ⟨fun h => out (R.Outside.step hstr (R.Outside.bind_left (hx.2 h))), fun h => ⟨fun rest' hr => ?_, fun h1 h2 h3 h4 h5 h6 => ?_⟩⟩
  · intro mem' e'
    have hdd : (Mapping.bytes ⟨file, pad⟩).drop (15 + e) = first.drop e := by
      rw [← List.drop_drop]; rfl
    have hy := half_exact P hT lb ob hlb hob fn ⟨file, pad⟩ (15 + e) rest' (by rw [hdd]; exact hr)
    rw [hdd] at hy
    refine ⟨fun h' => R.All.step hstr (R.All.bind (hx.1 h) fun r hr => ?_), fun h' => out (R.Outside.step hstr (R.Outside.after (hx.1 h) fun r hr => ?_))⟩
    · subst hr
      refine R.All.bind (hy.1 h') fun r hr => ?_
      subst hr
      exact R.All.pure rfl
    · subst hr
      exact R.Outside.bind_left (hy.2 h')
  · refine R.All.step hstr (R.All.bind (hx.1 h) fun r hr => ?_)
    subst hr
    have hl : file.length = 15 + first.length := by
      show (digraphMagic ++ first).length = _
      rw [List.length_append, hd]
    refine R.All.bind (readCsr_nothing P hT h3 h4 ⟨file, pad⟩ h2 fn (15 + e) h5 h6 (not_pigo (by show file.length ≤ _; omega)) ?_) fun r hr => R.All.pure ⟨rfl, hr.1⟩
    intro c hc
    have : (Mapping.bytes ⟨file, pad⟩).drop (15 + e) = [] := List.drop_eq_nil_of_le (by show file.length ≤ _; omega)
    rw [this] at hc
    exact absurd hc (by simp)

/-- **C43 is violated (DiGraph)**: a saved DiGraph file that is cut anywhere from the end of its first graph to 4 bytes after it is loaded without an error, by every
execution, as the first graph with a second one that has no edges. -/
theorem C43_digraph_half_violated (P : Params W) (hT : 0 < P.T) (hlb : 0 < P.lb ∧ P.lb < 256) (hob : 0 < P.ob ∧ P.ob < 256) (g : DiGraph W)
    (hi : FitsCsr P.lb P.ob P.wk.wgt P.cw g.inG) (j : Nat) (hj : j ≤ 4) (fn : List Byte) (h1 : ¬ str ".mtx" <:+ fn) (h2 : ¬ str ".graph" <:+ fn)
    (pad : Nat) (hpad : 0 < pad) :
    (readDiGraphBin P ⟨(digraphFile P.lb P.ob P.wk.wgt P.cw g).take (15 + (csrFile P.lb P.ob P.wk.wgt P.cw g.inG).length + j), pad⟩ fn 0).All
      (fun r => r.inG = g.inG ∧ NoEdges r.outG) := by
  obtain ⟨l, hl⟩ := csrBytes_magic P.lb P.ob P.wk.wgt P.cw g.outG
  obtain ⟨l0, hl0⟩ := csrBytes_magic P.lb P.ob P.wk.wgt P.cw g.inG
  have hd : digraphMagic.length = 15 := by decide
  have l11 : csrMagic.length = 11 := by decide
  have hcut : (digraphFile P.lb P.ob P.wk.wgt P.cw g).take (15 + (csrFile P.lb P.ob P.wk.wgt P.cw g.inG).length + j) =
      digraphMagic ++ (csrBytes P.lb P.ob P.wk.wgt P.cw g.inG ++ csrMagic.take j) := by
    rw [← csrBytes_eq, show digraphFile P.lb P.ob P.wk.wgt P.cw g = (digraphMagic ++ csrBytes P.lb P.ob P.wk.wgt P.cw g.inG) ++
      csrBytes P.lb P.ob P.wk.wgt P.cw g.outG by rw [csrBytes_eq, csrBytes_eq]; rfl]
    rw [← hd, ← List.length_append, List.take_length_add_append, hl, List.append_assoc csrMagic, List.take_append_of_le_length (by omega), List.append_assoc]
  rw [hcut]
  generalize hB : csrBytes P.lb P.ob P.wk.wgt P.cw g.inG = B at hl0
  have hr : Rest ⟨digraphMagic ++ (B ++ csrMagic.take j), pad⟩ 0 (digraphMagic ++ (B ++ (csrMagic.take j ++ List.replicate pad 0))) := by
    have := rest_file (bs := digraphMagic ++ (B ++ csrMagic.take j)) (pad := pad)
    simpa only [List.append_assoc] using this
  have hBl : 11 < B.length := by
    rw [hl0]; simp only [List.length_append, l11, Spec.le, List.length_map, List.length_range]; omega
  have hr1 := hr.next
  rw [hd, Nat.zero_add] at hr1
  have m1 : HasAt ⟨digraphMagic ++ (B ++ csrMagic.take j), pad⟩ 15 csrMagic := by
    refine hasAt_drop (t := Spec.le 1 P.lb ++ l0 ++ csrMagic.take j) ?_ (by rw [List.append_assoc]; exact le_ne_nil _ _)
    show (digraphMagic ++ _).drop 15 = _
    rw [← hd, List.drop_left, hl0]
    simp only [List.append_assoc]
  unfold readDiGraphBin
  refine R.All.step (rdStr_at hr (by show _ < (digraphMagic ++ (B ++ csrMagic.take j)).length; simp only [List.length_append]; omega)) ?_
  rw [hd, Nat.zero_add]
  have s1 := readCsr_at P hT hlb.2 hob.2 hi fn (μ := ⟨digraphMagic ++ (B ++ csrMagic.take j), pad⟩) (p := 15) (l := csrMagic.take j ++ List.replicate pad 0)
    (by rw [hB]; exact hr1) m1 (.inl rfl)
  rw [hB] at s1
  refine R.All.bind s1 fun r hr' => ?_
  subst hr'
  have hdr : (digraphMagic ++ (B ++ csrMagic.take j)).drop (15 + B.length) = csrMagic.take j := by
    rw [← List.append_assoc, ← hd, ← List.length_append, List.drop_left]
  refine R.All.bind (readCsr_nothing P hT hlb.1 hob.1 _ hpad fn (15 + B.length) h1 h2 (not_pigo ?_) ?_) fun r hr => R.All.pure ⟨rfl, hr.1⟩
  · show (digraphMagic ++ (B ++ csrMagic.take j)).length ≤ _
    simp only [List.length_append, List.length_take, hd, l11]; omega
  · intro c hc
    rw [hdr] at hc
    have : ∀ c ∈ csrMagic.take 4, isDigit c = false := by decide
    exact this c (by rw [show csrMagic.take j = (csrMagic.take 4).take j by rw [List.take_take, Nat.min_eq_left hj]] at hc; exact List.mem_of_mem_take hc)

example := C43_digraph_half_violated binParams (by decide) (by decide) (by decide) ⟨binCsr, binCsr⟩ binCsr_fits 0 (by decide) (str "g.bin") (by decide) (by decide) 7 (by decide)

/-- The hypotheses of `C43_digraph_exact`: a DiGraph file whose first graph has no vertices and no edges, cut in the header of the second (all the rest are the
zeros of the mapping). -/
example : csrEnd 1 1 false (codecNat 1 (by decide)) (mapped (str "PIGO-CSR-v2" ++ [1, 1] ++ [0, 0, 0, 0, 0]) 9) = 18 := by decide

end Pigo
