import Verif.Lemmas.SessionDups

/-!
# Saving, writing and loading, on the graphs the objects hold
-/

namespace Pigo.Session

variable {W : Type}

/-! ## what is saved does not depend on what is outside of the types -/

theorem encLE_mod (k : Nat) : ∀ n, encLE k (n % 256 ^ k) = encLE k n := by
  induction k with
  | zero => intro n; rfl
  | succ k ih =>
    intro n
    have h1 : n % 256 ^ (k + 1) % 256 = n % 256 := Nat.mod_mod_of_dvd n ⟨256 ^ k, by rw [Nat.pow_succ, Nat.mul_comm]⟩
    have h2 : n % 256 ^ (k + 1) / 256 = n / 256 % 256 ^ k := by
      rw [Nat.pow_succ, Nat.mul_comm]
      exact Nat.mod_mul_right_div_self n 256 (256 ^ k)
    rw [encLE, encLE, h1, h2, ih]

theorem saveWeights_norm (T : Nat) (wgt : Bool) (cw : Codec W) (m : Nat) (w : List W) (f : WFile) :
    saveWeights T wgt cw m (if wgt then w else []) f = saveWeights T wgt cw m w f := by
  cases wgt with
  | true => rfl
  | false => rfl

/-- The COO with its dimensions as the file stores them. -/
def normCoo (lb : Nat) (wgt : Bool) (c : Coo W) : Coo W :=
  { c with nrows := c.nrows % 256 ^ lb, ncols := c.ncols % 256 ^ lb, w := if wgt then c.w else [] }

theorem saveCoo_norm (T lb ob : Nat) (wgt : Bool) (cw : Codec W) (c : Coo W) : saveCoo T lb ob wgt cw (normCoo lb wgt c) = saveCoo T lb ob wgt cw c := by
  simp only [saveCoo, normCoo, cooSaveSize, encLE_mod, saveWeights_norm]

/-- The CSR with its dimensions as the file stores them. -/
def normCsr (lb : Nat) (wgt : Bool) (c : Csr W) : Csr W :=
  { c with nrows := c.nrows % 256 ^ lb, ncols := c.ncols % 256 ^ lb, weights := if wgt then c.weights else [] }

theorem saveCsrTo_norm (T lb ob : Nat) (wgt : Bool) (cw : Codec W) (c : Csr W) (f : WFile) :
    saveCsrTo T lb ob wgt cw (normCsr lb wgt c) f = saveCsrTo T lb ob wgt cw c f := by
  simp only [saveCsrTo, normCsr, encLE_mod, saveWeights_norm]

theorem saveCsr_norm (T lb ob : Nat) (wgt : Bool) (cw : Codec W) (c : Csr W) : saveCsr T lb ob wgt cw (normCsr lb wgt c) = saveCsr T lb ob wgt cw c := by
  simp only [saveCsr, saveCsrTo_norm]
  rfl

theorem saveDiGraph_norm (T lb ob : Nat) (wgt : Bool) (cw : Codec W) (g : DiGraph W) :
    saveDiGraph T lb ob wgt cw ⟨normCsr lb wgt g.inG, normCsr lb wgt g.outG⟩ = saveDiGraph T lb ob wgt cw g := by
  simp only [saveDiGraph, saveCsrTo_norm]
  rfl

theorem normCoo_holds {lb : Nat} {wgt : Bool} {c : Coo W} {es : List (Nat × Nat × W)} (h : Holds c wgt es) : Holds (normCoo lb wgt c) wgt es :=
  ⟨h.m, h.x, h.y, fun hw => by subst hw; exact h.w rfl⟩

theorem normCsr_isCsr {lb : Nat} {wgt : Bool} {c : Csr W} {rows : List (List (Nat × W))} (h : IsCsr c wgt rows) : IsCsr (normCsr lb wgt c) wgt rows :=
  ⟨h.n, h.m, h.offsets, h.endpoints, fun hw => by subst hw; exact h.weights rfl⟩

variable [Inhabited W] {E : Types W} {N : Nat} {ok : W → Prop}

theorem normCsr_is {lb : Nat} {wgt : Bool} {c : Csr W} {s : Net W} (h : Spec.CsrIs wgt c s) : Spec.CsrIs wgt (normCsr lb wgt c) s := by
  obtain ⟨rows, hi, hp⟩ := csrIs_rows h
  exact csrIs_of (normCsr_isCsr hi) h.n hp

theorem normCoo_is {lb : Nat} {wgt : Bool} {c : Coo W} {s : Net W} (h : Spec.CooIs wgt c s) : Spec.CooIs wgt (normCoo lb wgt c) s := by
  obtain ⟨es, hh, hp⟩ := cooIs_holds h
  exact cooIs_of (normCoo_holds hh) h.n hp

theorem fits_coo (hE : TypesOk E N ok) {c : Coo W} {s : Net W} (h : Spec.CooIs E.wk.wgt c s) (hs : Within N ok s)
    (hm : s.es.length < 2 ^ (8 * E.ob)) : Pigo.Spec.FitsCoo E.lb E.ob E.wk.wgt E.cw (normCoo E.lb E.wk.wgt c) := by
  obtain ⟨es, hh, hp⟩ := cooIs_holds h
  have hr := within_raw hE hs hp
  have hN := hE.N
  have hn := hs.n
  rw [← pow256] at hN hm
  have hpos : 0 < 256 ^ E.lb := Nat.pow_pos (by omega)
  refine ⟨⟨h.x, ?_⟩, ⟨h.y, ?_⟩, ⟨?_, ?_⟩, ?_, Nat.mod_lt _ hpos, Nat.mod_lt _ hpos, ?_⟩
  · intro v hv
    have hv : v ∈ c.x := hv
    rw [hh.x] at hv
    obtain ⟨e, he, rfl⟩ := List.mem_map.mp hv
    have := (hr e he).1
    omega
  · intro v hv
    have hv : v ∈ c.y := hv
    rw [hh.y] at hv
    obtain ⟨e, he, rfl⟩ := List.mem_map.mp hv
    have := (hr e he).2.1
    omega
  · show (if E.wk.wgt = true then c.w else []).length = if E.wk.wgt = true then c.m else 0
    split
    · exact h.w ‹_›
    · rfl
  · intro v hv
    have hv : v ∈ (if E.wk.wgt = true then c.w else []) := hv
    split at hv
    · rename_i hw
      rw [hh.w hw] at hv
      obtain ⟨e, he, rfl⟩ := List.mem_map.mp hv
      exact hE.cw hw _ (hr e he).2.2
    · cases hv
  · show c.n < _
    rw [h.n]; omega
  · show c.m < _
    rw [hh.m, perm_len hp]; exact hm

theorem offsets_le {c : Csr W} {wgt : Bool} (h : Pigo.Spec.ValidCsr c wgt) : ∀ v ∈ c.offsets, v ≤ c.m := by
  have hi := isCsr_of_valid h (default : W)
  generalize rowsOfCsr wgt default c = rows at hi
  intro v hv
  rw [hi.offsets] at hv
  obtain ⟨i, hi', rfl⟩ := List.mem_iff_getElem.mp hv
  have hle : i ≤ rows.length := by
    have := hi'
    simp at this
    omega
  have h1 := hi.off hle
  have h2 : Pigo.Spec.off c i = (offsetsOf (rows.map List.length))[i] := by
    rw [Pigo.Spec.off, hi.offsets, List.getD_eq_getElem?_getD, List.getElem?_eq_getElem hi']
    rfl
  rw [← h2, h1, hi.m]
  conv => rhs; rw [← List.take_append_drop i rows, List.flatten_append, List.length_append]
  omega

theorem csr_m {wgt : Bool} {c : Csr W} {s : Net W} (h : Spec.CsrIs wgt c s) : c.m = s.es.length := by
  rw [← h.edges.length_eq, ValidCsr.pairs_length (isCsr_of_valid h.valid (default : W)), ← edges_ends h.valid, List.length_map]

theorem fits_csr (hE : TypesOk E N ok) {c : Csr W} {s : Net W} (h : Spec.CsrIs E.wk.wgt c s) (hs : Within N ok s)
    (hm : s.es.length < 2 ^ (8 * E.ob)) : Pigo.Spec.FitsCsr E.lb E.ob E.wk.wgt E.cw (normCsr E.lb E.wk.wgt c) := by
  have hv := h.valid
  have hcm := csr_m h
  have hN := hE.N
  have hn := hs.n
  rw [← pow256] at hN hm
  have hpos : 0 < 256 ^ E.lb := Nat.pow_pos (by omega)
  have hcn : c.n = s.n := h.n
  refine ⟨⟨hv.offsets, ?_⟩, ⟨hv.endpoints, ?_⟩, ⟨?_, ?_⟩, ?_, Nat.mod_lt _ hpos, Nat.mod_lt _ hpos, ?_, ?_⟩
  · intro v hv'
    have := offsets_le hv v hv'
    omega
  · intro u hu
    obtain ⟨e, he, rfl⟩ := endpoint_edge hv (show u ∈ c.endpoints from hu)
    have := (hs.ends e (h.edges.mem_iff.mp he)).2
    omega
  · show (if E.wk.wgt = true then c.weights else []).length = if E.wk.wgt = true then c.m else 0
    split
    · exact hv.weights ‹_›
    · rfl
  · intro v hv'
    have hv' : v ∈ (if E.wk.wgt = true then c.weights else []) := hv'
    split at hv'
    · rename_i hw
      obtain ⟨rows, hi, hp⟩ := csrIs_rows h
      rw [hi.weights hw] at hv'
      obtain ⟨p, hp', rfl⟩ := List.mem_map.mp hv'
      obtain ⟨r, hr, hp'⟩ := List.mem_flatten.mp hp'
      obtain ⟨i, hi', rfl⟩ := List.mem_iff_getElem.mp hr
      refine hE.cw hw _ (within_raw hE hs hp (i, p.1, p.2) ?_).2.2
      refine List.mem_flatMap.mpr ⟨i, List.mem_range.mpr hi', List.mem_map.mpr ⟨p, ?_, rfl⟩⟩
      rw [List.getD_eq_getElem?_getD, List.getElem?_eq_getElem hi']
      exact hp'
    · cases hv'
  · show c.n < _
    omega
  · show c.m < _
    omega
  · refine .inr ?_
    show c.n + 1 < _
    omega

/-! ## loading -/

/-- Reading as a COO, seen from the format readers. -/
theorem fmt_of_coo {P : Params W} {μ : Mapping} {fn : List Byte} {t : FileType} {Q : Coo W → Prop} (ht : usedType μ fn 0 .auto = .ok t)
    (hcoo : t = .matrixMarket ∨ t = .edgeList ∨ t = .cooBin) (h : (readCoo P {} μ fn 0 .auto).All Q) :
    (readCooFmt P {} μ 0 t).All (fun p => Q p.1) := by
  intro o ho
  have hh := h (match o with | .error f => .error f | .ok p => .ok p.1) (by
    unfold readCoo
    refine ⟨.ok t, ht.symm, ?_⟩
    dsimp only
    rw [if_pos hcoo]
    refine ⟨o, ho, ?_⟩
    cases o with
    | error f => rfl
    | ok p => exact rfl)
  cases o with
  | error f => obtain ⟨_, h', _⟩ := hh; cases h'
  | ok p => obtain ⟨a, h', ha⟩ := hh; cases h'; exact ⟨p, rfl, ha⟩

theorem load_graph (hE : TypesOk E N ok) {T : Nat} (hT : 0 < T) {μ : Mapping} {fn : List Byte} {s : Net W} (hs : Within N ok s)
    (hm : s.es.length < 2 ^ (8 * E.ob)) {t : FileType} (ht : usedType μ fn 0 .auto = .ok t) (hne : t ≠ .digraphBin)
    (h : (readCoo (E.params T) {} μ fn 0 .auto).All (fun c => Spec.CooIs E.wk.wgt c s)) :
    (readDiGraph (E.params T) μ fn .auto).All (fun g => Spec.Is E.wk.wgt .graph g s) := by
  unfold readDiGraph
  refine R.All.step ht ?_
  rw [if_neg hne]
  exact R.All.bind h (fun c hc => toGraph_is hE hT hc hs hm)

theorem load_matrix (hE : TypesOk E N ok) {T : Nat} (hT : 0 < T) {μ : Mapping} {fn : List Byte} {s : Net W} (hs : Within N ok s)
    (hm : s.es.length < 2 ^ (8 * E.ob)) (h : (readCoo (E.params T) {} μ fn 0 .auto).All (fun c => Spec.CooIs E.wk.wgt c s)) :
    (readMatrix (E.params T) μ fn).All (fun g => Spec.Is E.wk.wgt .matrix g s) :=
  R.All.bind h (fun _ hc => toMatrix_is hE hT hc hs hm)

/-- Loading a file that gives a COO. -/
theorem load_is (hE : TypesOk E N ok) {T : Nat} (hT : 0 < T) {μ : Mapping} {fn : List Byte} {s : Net W} (hs : Within N ok s)
    (hm : s.es.length < 2 ^ (8 * E.ob)) {t : FileType} (ht : usedType μ fn 0 .auto = .ok t)
    (hcoo : t = .matrixMarket ∨ t = .edgeList ∨ t = .cooBin)
    (h : (readCoo (E.params T) {} μ fn 0 .auto).All (fun c => Spec.CooIs E.wk.wgt c s)) (k : Kind) :
    (load (E.params T) k μ fn).All (fun o => Spec.Is E.wk.wgt k o s) := by
  cases k with
  | coo => exact h
  | csr =>
    refine R.All.bind (P := fun r : Csr W × Nat => Spec.CsrIs E.wk.wgt r.1 s) ?_ (fun r hr => R.All.pure hr)
    unfold readCsr
    refine R.All.step ht ?_
    rw [if_pos hcoo]
    refine R.All.bind (fmt_of_coo ht hcoo h) ?_
    rintro ⟨c, p⟩ hc
    exact R.All.bind (toCsr_is hE hT hc hs hm) (fun r hr => R.All.pure hr)
  | graph => exact load_graph hE hT hs hm ht (by rcases hcoo with rfl | rfl | rfl <;> decide) h
  | matrix => exact load_matrix hE hT hs hm h

/-! ## binary files -/

theorem saveCoo_is (hE : TypesOk E N ok) {T : Nat} (hT : 0 < T) {c : Coo W} {s : Net W} (h : Spec.CooIs E.wk.wgt c s) (hs : Within N ok s)
    (hm : s.es.length < 2 ^ (8 * E.ob)) (k : Kind) (fn : List Byte) (pad : Nat) :
    (saveCoo T E.lb E.ob E.wk.wgt E.cw c >>= fun bs => load (E.params T) k ⟨bs, pad⟩ fn).All (fun o => Spec.Is E.wk.wgt k o s) := by
  rw [← saveCoo_norm]
  have hf := fits_coo hE h hs hm
  have hb := saveCoo_all hT E.cw hf
  have hr := C37_coo_roundtrip (E.params T) T hT hT hE.lb.2 hE.ob {} _ hf fn pad .auto (.inl rfl)
  refine R.All.bindOut hb (fun bs hbs hb => ?_)
  refine load_is hE hT hs hm (t := .cooBin) ?_ (.inr (.inr rfl)) ?_ k
  · unfold usedType
    rw [if_pos rfl, hb, cooBytes_eq]
    exact (C45_saved E.lb E.ob pad E.wk.wgt E.cw fn _ ⟨[], [], [], 0, 0, 0, 0⟩ ⟨⟨[], [], [], 0, 0, 0, 0⟩, ⟨[], [], [], 0, 0, 0, 0⟩⟩ ⟨[], [], 0, 0⟩).1
  · refine (R.All.of_bind hr hbs).mono ?_
    rintro r rfl
    exact normCoo_is h

theorem saveCsr_is (hE : TypesOk E N ok) {T : Nat} (hT : 0 < T) {c : Csr W} {s : Net W} (h : Spec.CsrIs E.wk.wgt c s) (hs : Within N ok s)
    (hm : s.es.length < 2 ^ (8 * E.ob)) (k : Kind) (hst : k ≠ .csr → E.wk.wgt = true → E.stor ≠ .vector) (fn : List Byte) (pad : Nat) :
    (saveCsr T E.lb E.ob E.wk.wgt E.cw c >>= fun bs => load (E.params T) k ⟨bs, pad⟩ fn).All (fun o => Spec.Is E.wk.wgt k o s) := by
  rw [← saveCsr_norm]
  have hf := fits_csr hE h hs hm
  have hn := normCsr_is (lb := E.lb) h
  have hcoo : k ≠ .csr → (saveCsr T E.lb E.ob E.wk.wgt E.cw (normCsr E.lb E.wk.wgt c) >>= fun bs => readCoo (E.params T) {} ⟨bs, pad⟩ fn 0 .auto).All
      (fun r => Spec.CooIs E.wk.wgt r s) := by
    intro hk o ho
    exact toCoo_is (ow := 8 * E.ob) (T := T) (stor := E.stor) .none hn (hst hk) (by simpa [flagFactor] using hm) o
      (readCoo_savedCsr (E.params T) T hT hT hE.lb.2 hE.ob {} _ hf fn pad o ho)
  refine R.All.bindOut (saveCsr_all hT E.cw hf) (fun bs hbs hb => ?_)
  cases k with
  | coo => exact R.All.of_bind (hcoo (by decide)) hbs
  | csr =>
    have hr := C38_csr_roundtrip (E.params T) T hT hT hE.lb.2 hE.ob _ hf fn pad .auto (.inl rfl)
    refine R.All.bind (R.All.of_bind hr hbs) (fun r hr => R.All.pure ?_)
    rw [hr]
    exact hn
  | matrix => exact load_matrix hE hT hs hm (R.All.of_bind (hcoo (by decide)) hbs)
  | graph =>
    refine load_graph hE hT hs hm (t := .csrBin) ?_ (by decide) (R.All.of_bind (hcoo (by decide)) hbs)
    unfold usedType
    rw [if_pos rfl, hb, csrBytes_eq]
    exact (C45_saved E.lb E.ob pad E.wk.wgt E.cw fn ⟨[], [], [], 0, 0, 0, 0⟩ _ ⟨⟨[], [], [], 0, 0, 0, 0⟩, ⟨[], [], [], 0, 0, 0, 0⟩⟩ ⟨[], [], 0, 0⟩).2.1

omit [Inhabited W] in
theorem within_swap {s : Net W} (h : Within N ok s) : Within N ok ⟨s.n, s.es.map Spec.swap⟩ := by
  refine ⟨h.n, ?_, ?_⟩ <;> intro e he <;> obtain ⟨e', he', rfl⟩ := List.mem_map.mp he
  · exact ⟨(h.ends e' he').2, (h.ends e' he').1⟩
  · exact h.w e' he'

theorem saveGraph_is (hE : TypesOk E N ok) {T : Nat} (hT : 0 < T) {g : DiGraph W} {s : Net W} (h : Spec.Is E.wk.wgt .graph g s) (hs : Within N ok s)
    (hm : s.es.length < 2 ^ (8 * E.ob)) (fn : List Byte) (pad : Nat) :
    (saveDiGraph T E.lb E.ob E.wk.wgt E.cw g >>= fun bs => load (E.params T) .graph ⟨bs, pad⟩ fn).All (fun o => Spec.Is E.wk.wgt .graph o s) := by
  obtain ⟨h1, h2⟩ := h
  rw [← saveDiGraph_norm]
  have f1 := fits_csr hE h1 hs hm
  have f2 := fits_csr hE h2 (within_swap hs) (by rw [List.length_map]; exact hm)
  have hr := C39_digraph_roundtrip (E.params T) T hT hT hE.lb.2 hE.ob ⟨normCsr E.lb E.wk.wgt g.inG, normCsr E.lb E.wk.wgt g.outG⟩ f2 f1 fn pad
  refine R.All.bindOut (saveDiGraph_all hT E.cw f2 f1) (fun bs hbs hb => ?_)
  show (readDiGraph _ _ _ _).All _
  unfold readDiGraph
  refine R.All.step (a := FileType.digraphBin) ?_ ?_
  · unfold usedType
    rw [if_pos rfl, hb]
    have := (C45_saved E.lb E.ob pad E.wk.wgt E.cw fn ⟨[], [], [], 0, 0, 0, 0⟩ ⟨[], [], [], 0, 0, 0, 0⟩ ⟨normCsr E.lb E.wk.wgt g.inG, normCsr E.lb E.wk.wgt g.outG⟩ ⟨[], [], 0, 0⟩).2.2.1
    rw [Pigo.Spec.digraphFile, ← csrBytes_eq, ← csrBytes_eq] at this
    exact this
  · rw [if_pos rfl]
    refine (R.All.of_bind hr hbs).mono ?_
    rintro r rfl
    exact ⟨normCsr_is h1, normCsr_is h2⟩

end Pigo.Session
