import Verif.Lemmas.SessionOps

/-!
# Removing duplicates, on the graph a CSR holds
-/

namespace Pigo.Session

variable {W : Type} [Inhabited W] {E : Types W} {N : Nat} {ok : W → Prop}

theorem edges_ends {wgt : Bool} {c : Csr W} (h : Pigo.Spec.ValidCsr c wgt) : (Spec.csrEdges wgt c).map Spec.ends = Pigo.Spec.pairs c := by
  have hi := isCsr_of_valid h (default : W)
  rw [isCsr_edges hi, List.map_map, ← csrEntries_plain]
  have h3 := csrEntries_xy hi {}
  have : (Pigo.Spec.pairs c).flatMap (fun p => csrEntry {} p.1 p.2) = Pigo.Spec.pairs c := by
    have := flatMap_one (fun p : Nat × Nat => p) (Pigo.Spec.pairs c)
    rw [List.map_id''] at this
    · exact this
    · intro x; rfl
  rw [this] at h3
  exact h3

omit [Inhabited W] in
theorem mem_edges_true {c : Csr W} {e : Nat × Nat × Option W} :
    e ∈ Spec.csrEdges true c ↔ ∃ v, v < c.n ∧ ∃ p ∈ (Pigo.Spec.row c v).zip (Pigo.Spec.rowWeights c v), e = (v, p.1, some p.2) := by
  have hz : ∀ v, (Pigo.Spec.row c v).zip ((Pigo.Spec.rowWeights c v).map some) =
      ((Pigo.Spec.row c v).zip (Pigo.Spec.rowWeights c v)).map (fun p => (p.1, some p.2)) := by
    intro v
    conv => lhs; rw [← List.map_id (Pigo.Spec.row c v), List.zip_map]
    rfl
  unfold Spec.csrEdges
  simp only [if_pos, hz, List.mem_flatMap, List.mem_range, List.mem_map]
  constructor
  · rintro ⟨v, hv, _, ⟨p, hp, rfl⟩, rfl⟩
    exact ⟨v, hv, p, hp, rfl⟩
  · rintro ⟨v, hv, p, hp, rfl⟩
    exact ⟨v, hv, _, ⟨p, hp, rfl⟩, rfl⟩

omit [Inhabited W] in
theorem edges_none {c : Csr W} {e : Nat × Nat × Option W} (he : e ∈ Spec.csrEdges false c) : e.2.2 = none := by
  unfold Spec.csrEdges at he
  obtain ⟨v, _, he⟩ := List.mem_flatMap.mp he
  obtain ⟨p, hp, rfl⟩ := List.mem_map.mp he
  rw [if_neg (by decide)] at hp
  obtain ⟨_, h2⟩ := List.of_mem_zip (a := p.1) (b := p.2) hp
  obtain ⟨_, _, h3⟩ := List.mem_map.mp h2
  exact h3.symm

theorem mem_edges_false {c : Csr W} (h : Pigo.Spec.ValidCsr c false) {e : Nat × Nat × Option W} :
    e ∈ Spec.csrEdges false c ↔ Spec.ends e ∈ Pigo.Spec.pairs c ∧ e.2.2 = none := by
  rw [← edges_ends h]
  constructor
  · exact fun he => ⟨List.mem_map_of_mem he, edges_none he⟩
  · rintro ⟨he, hn⟩
    obtain ⟨e', he', h1⟩ := List.mem_map.mp he
    have h2 := edges_none he'
    have : e = e' := by
      obtain ⟨a, b, w⟩ := e
      obtain ⟨a', b', w'⟩ := e'
      simp only [Spec.ends, Prod.mk.injEq] at h1
      simp only at hn h2
      rw [h1.1, h1.2, hn, h2]
    rw [this]
    exact he'

theorem endpoint_edge {wgt : Bool} {c : Csr W} (h : Pigo.Spec.ValidCsr c wgt) {u : Nat} (hu : u ∈ c.endpoints) : ∃ e ∈ Spec.csrEdges wgt c, e.2.1 = u := by
  have hi := isCsr_of_valid h (default : W)
  rw [isCsr_edges hi]
  rw [hi.endpoints] at hu
  generalize rowsOfCsr wgt default c = rows at *
  obtain ⟨p, hp, rfl⟩ := List.mem_map.mp hu
  obtain ⟨r, hr, hp⟩ := List.mem_flatten.mp hp
  obtain ⟨v, hv, rfl⟩ := List.mem_iff_getElem.mp hr
  refine ⟨view wgt (v, p.1, p.2), List.mem_map_of_mem ?_, rfl⟩
  refine List.mem_flatMap.mpr ⟨v, List.mem_range.mpr hv, List.mem_map.mpr ⟨p, ?_, rfl⟩⟩
  rw [List.getD_eq_getElem?_getD, List.getElem?_eq_getElem hv]
  exact hp

theorem dups_is (hE : TypesOk E N ok) {T : Nat} (hT : 0 < T) {c : Csr W} {s : Net W} (h : Spec.CsrIs E.wk.wgt c s) (hs : Within N ok s) :
    (Pigo.withoutDups (8 * E.lb) T E.wk.wgt E.wlt c).All (fun r => ∃ s', Spec.Distinct E.wlt s s' ∧ Spec.CsrIs E.wk.wgt r.2 s') := by
  have hl : ∀ u ∈ c.endpoints, u + 1 < 2 ^ (8 * E.lb) := by
    intro u hu
    obtain ⟨e, he, rfl⟩ := endpoint_edge h.valid hu
    have h1 := (hs.ends e (h.edges.mem_iff.mp he)).2
    have h2 := hs.n
    have h3 := hE.N
    omega
  have hfit := fit_of hE (n := c.n) (by rw [h.n]; exact hs.n)
  have a1 := C34_without_dups (8 * E.lb) T hT E.wk.wgt E.wlt c h.valid hl hfit
  have a2 := C34_entry_set (8 * E.lb) T hT E.wk.wgt E.wlt c h.valid hl hfit
  have a3 : E.wk.wgt = true → (Pigo.withoutDups (8 * E.lb) T E.wk.wgt E.wlt c).All (fun r =>
      ∀ v, v < c.n → ∀ p ∈ (Pigo.Spec.row r.2 v).zip (Pigo.Spec.rowWeights r.2 v),
        p ∈ (Pigo.Spec.row c v).zip (Pigo.Spec.rowWeights c v) ∧
        ∀ q ∈ (Pigo.Spec.row c v).zip (Pigo.Spec.rowWeights c v), q.1 = p.1 → ¬ E.wlt q.2 p.2) := by
    intro hw
    have hv := h.valid
    rw [hw] at hv ⊢
    exact C35_smallest_weight (8 * E.lb) T hT E.wlt hE.wlt c hv hl hfit
  intro o ho
  obtain ⟨r, rfl, ⟨hv, hn, _⟩, _⟩ := a1 o ho
  obtain ⟨r', hr', b1, b2, _⟩ := a2 _ ho
  cases hr'
  refine ⟨r, rfl, ⟨s.n, Spec.csrEdges E.wk.wgt r.2⟩, ⟨rfl, by dsimp only; rw [edges_ends hv]; exact b1, ?_, ?_, ?_⟩, hv, by rw [hn, h.n], .refl _⟩
  · intro e he
    dsimp only at he
    refine h.edges.mem_iff.mp ?_
    have hvc := h.valid
    cases hw : E.wk.wgt with
    | false =>
      rw [hw] at he hv hvc
      rw [mem_edges_false hv, b2] at he
      rw [mem_edges_false hvc]
      exact he
    | true =>
      obtain ⟨r', hr', b3⟩ := a3 hw _ ho
      cases hr'
      rw [hw, mem_edges_true] at he
      obtain ⟨v, hv', p, hp, rfl⟩ := he
      rw [hn] at hv'
      rw [mem_edges_true]
      exact ⟨v, hv', p, (b3 v hv' p hp).1, rfl⟩
  · intro e he
    dsimp only
    rw [edges_ends hv, b2, ← edges_ends h.valid]
    exact List.mem_map_of_mem (h.edges.mem_iff.mpr he)
  · intro e' he' e he hee w w' h1 h2
    dsimp only at he'
    have he := h.edges.mem_iff.mpr he
    cases hw : E.wk.wgt with
    | false =>
      rw [hw] at he
      rw [edges_none he] at h1
      cases h1
    | true =>
      obtain ⟨r', hr', b3⟩ := a3 hw _ ho
      cases hr'
      rw [hw, mem_edges_true] at he he'
      obtain ⟨v, hv1, p, hp, rfl⟩ := he'
      obtain ⟨v2, hv2, q, hq, rfl⟩ := he
      simp only [Spec.ends, Prod.mk.injEq] at hee
      obtain ⟨rfl, hqp⟩ := hee
      injection h1 with h1
      injection h2 with h2
      rw [hn] at hv1
      rw [← h1, ← h2]
      exact (b3 _ hv1 p hp).2 q hq hqp

end Pigo.Session
