import Verif.Props.Csr

/-!
# Round trips, sorting and duplicate removal

C30–C36 and C68.
-/

namespace Pigo

variable {W : Type}

/-! ## C30 -/

theorem filter_key_flatMap {α : Type} (key : α → Nat) (f : Nat → List α) (n : Nat) (hf : ∀ u, ∀ a ∈ f u, key a = u) (v : Nat) :
    ((List.range n).flatMap f).filter (fun a => key a == v) = if v < n then f v else [] := by
  induction n with
  | zero => simp
  | succ n ih =>
    rw [List.range_succ, List.flatMap_append, List.filter_append, ih, List.flatMap_singleton]
    by_cases h : v = n
    · subst h
      rw [if_neg (by omega), if_pos (by omega), List.nil_append, List.filter_eq_self]
      intro a ha
      simpa using hf v a ha
    · have e : (f n).filter (fun a => key a == v) = [] := by
        rw [List.filter_eq_nil_iff]
        intro a ha
        have := hf n a ha
        simp [this, Ne.symm h]
      rw [e, List.append_nil]
      by_cases h' : v < n
      · rw [if_pos h', if_pos (by omega)]
      · rw [if_neg h', if_neg (by omega)]

theorem group_perm {α : Type} (key : α → Nat) (n : Nat) : ∀ (l : List α), (∀ a ∈ l, key a < n) →
    ((List.range n).flatMap (fun v => l.filter (fun a => key a == v))).Perm l := by
  induction n with
  | zero =>
    intro l h
    cases l with
    | nil => simp
    | cons a l => exact absurd (h a (by simp)) (by omega)
  | succ n ih =>
    intro l h
    rw [List.range_succ, List.flatMap_append, List.flatMap_singleton]
    have e1 : (List.range n).flatMap (fun v => l.filter (fun a => key a == v)) =
        (List.range n).flatMap (fun v => (l.filter (fun a => !(key a == n))).filter (fun a => key a == v)) := by
      apply flatMap_congr'
      intro v hv
      rw [List.filter_filter]
      apply List.filter_congr
      intro a _
      have := List.mem_range.mp hv
      by_cases h1 : key a = v
      · have : ¬ v = n := by omega
        simp [h1, this]
      · simp [h1]
    rw [e1]
    refine ((ih _ ?_).append_right _).trans (List.perm_append_comm.trans (List.filter_append_perm _ l))
    intro a ha
    rw [List.mem_filter] at ha
    have h1 := h a ha.1
    have h2 : ¬ key a = n := by simpa using ha.2
    omega

/-- Rows as triples. -/
def rowTriples (rows : List (List (Nat × W))) : List (Nat × Nat × W) :=
  (List.range rows.length).flatMap (fun v => (rows.getD v []).map (fun p => (v, p.1, p.2)))

theorem csrEntries_plain (rows : List (List (Nat × W))) : csrEntries {} rows = rowTriples rows := by
  rw [csrEntries, rowTriples]
  apply flatMap_congr'
  intro v _
  induction rows.getD v [] with
  | nil => rfl
  | cons a l ih => rw [List.flatMap_cons, ih]; rfl

theorem groupRows_rowTriples (rows : List (List (Nat × W))) : groupRows rows.length (rowTriples rows) = rows := by
  have e : ∀ v, v < rows.length → ((rowTriples rows).filter (fun e => e.1 == v)).map (fun e => e.2) = rows.getD v [] := by
    intro v hv
    rw [rowTriples, filter_key_flatMap (fun e : Nat × Nat × W => e.1), if_pos hv, List.map_map]
    · exact List.map_id'' (fun p => rfl) _
    · intro u a ha
      obtain ⟨p, _, rfl⟩ := List.mem_map.mp ha
      rfl
  rw [groupRows, List.map_congr_left (fun v hv => e v (List.mem_range.mp hv))]
  have := map_range_getD rows (fun r => r)
  rwa [List.map_id''] at this
  intro x; rfl

/-- C30: converting a CSR to a COO (any number of threads) and back with one thread returns the same offsets,
endpoints, weights, `n` and `m`. -/
theorem C30_csr_coo_csr [Inhabited W] (lw ow T : Nat) (stor : Storage) (wgt : Bool) (c : Csr W) (hc : Spec.ValidCsr c wgt)
    (hs : wgt = true → stor ≠ .vector) (hm : c.m < 2 ^ ow) (hfit : Spec.OffsetsFit lw c.n) :
    (convertCsr ow T stor {} wgt c >>= convertCoo lw ow 1 wgt).All (fun r => r.n = c.n ∧ r.m = c.m ∧
      r.offsets = c.offsets ∧ r.endpoints = c.endpoints ∧ (wgt = true → r.weights = c.weights)) := by
  have hi := isCsr_of_valid hc (default : W)
  generalize rowsOfCsr wgt default c = rows at hi
  refine R.All.bind (convertCsr_all (T := T) (ow := ow) (cfg := {}) hi hs rfl (by simp) (by simpa [csrFactor] using hm)) (fun k hk => ?_)
  obtain ⟨hn, hh⟩ := hk
  rw [csrEntries_plain] at hh
  have hlab : ∀ e ∈ rowTriples rows, e.1 < k.n := by
    intro e he
    obtain ⟨v, hv, hm⟩ := List.mem_flatMap.mp he
    obtain ⟨p, _, rfl⟩ := List.mem_map.mp hm
    have := List.mem_range.mp hv
    rw [hn, hi.n]; exact this
  have hkm : k.m = c.m := by
    rw [hh.m, hi.m]
    have h1 : (groupRows rows.length (rowTriples rows)).flatten.length = rows.flatten.length := by
      rw [groupRows_rowTriples]
    rw [← h1]
    have h2 := (group_perm (fun e : Nat × Nat × W => e.1) k.n _ hlab).length_eq
    rw [← h2, hn, hi.n, groupRows, ← List.flatMap_def, List.length_flatMap, List.length_flatMap]
    congr 1
    apply List.map_congr_left
    intro v _
    simp
  refine (convertCoo_all (T := 1) (ow := ow) (by omega) hh hlab (by rw [hkm]; exact hm) (by rw [hn]; exact hfit)).mono (fun r hr => ?_)
  obtain ⟨hrm, _, _, es', _, h1, hcsr⟩ := hr
  have := h1 rfl
  subst this
  rw [hn, hi.n, groupRows_rowTriples] at hcsr
  exact ⟨by rw [hcsr.n, hi.n], by rw [hcsr.m, hi.m], by rw [hcsr.offsets, hi.offsets], by rw [hcsr.endpoints, hi.endpoints],
    fun hw => by rw [hcsr.weights hw, hi.weights hw]⟩

theorem pairwise_all {α : Type _} {R : α → α → Prop} (h : ∀ a b, R a b) : ∀ l : List α, l.Pairwise R
  | [] => .nil
  | _ :: l => .cons (fun _ _ => h _ _) (pairwise_all h l)

/-- C30: converting a COO to a CSR and back returns a permutation of the entries, sorted by `x`, for every
schedule and every number of threads. -/
theorem C30_coo_csr_coo (lw ow T T' : Nat) (hT : 0 < T) (stor : Storage) (wgt : Bool) (c : Coo W) (es : List (Nat × Nat × W))
    (hc : Holds c wgt es) (hlab : ∀ e ∈ es, e.1 < c.n) (hm : c.m < 2 ^ ow) (hs : wgt = true → stor ≠ .vector)
    (hn : Spec.OffsetsFit lw c.n) :
    (convertCoo lw ow T wgt c >>= convertCsr ow T' stor {} wgt).All (fun r => r.n = c.n ∧
      ∃ es', es'.Perm es ∧ (es'.map (fun e => e.1)).Pairwise (· ≤ ·) ∧ Holds r wgt es') := by
  refine R.All.bind (convertCoo_all (T := T) (ow := ow) hT hc hlab hm hn) (fun k hk => ?_)
  obtain ⟨hkm, _, _, es', hp, _, hcsr⟩ := hk
  refine (convertCsr_all (T := T') (ow := ow) (cfg := {}) hcsr hs rfl (by simp) (by simpa [csrFactor, hkm] using hm)).mono (fun r hr => ?_)
  obtain ⟨hn, hh⟩ := hr
  refine ⟨by rw [hn, hcsr.n]; simp [groupRows], _, ?_, ?_, hh⟩
  · rw [csrEntries_plain, rowTriples]
    have hlab' : ∀ e ∈ es', e.1 < c.n := fun e he => hlab e (hp.mem_iff.mp he)
    refine List.Perm.trans (List.Perm.of_eq ?_) ((group_perm (fun e : Nat × Nat × W => e.1) c.n es' hlab').trans hp)
    rw [show (groupRows c.n es').length = c.n by simp [groupRows]]
    apply flatMap_congr'
    intro v hv
    rw [List.getD_eq_getElem?_getD, groupRows_get es' (List.mem_range.mp hv), Option.getD_some, List.map_map]
    refine (List.map_congr_left (g := fun e => e) ?_).trans (List.map_id'' (fun _ => rfl) _)
    intro e he
    have := (List.mem_filter.mp he).2
    have h' : e.1 = v := by simpa using this
    show (v, e.2.1, e.2.2) = e
    rw [← h']
  · rw [csrEntries_plain, rowTriples, map_flatMap', List.pairwise_flatMap]
    refine ⟨?_, ?_⟩
    · intro v _
      rw [List.map_map]
      rw [List.pairwise_map]
      exact pairwise_all (fun _ _ => Nat.le_refl v) _
    · refine (range_pairwise _).imp ?_
      intro a b hab x hx y hy
      rw [List.map_map] at hx hy
      obtain ⟨_, _, rfl⟩ := List.mem_map.mp hx
      obtain ⟨_, _, rfl⟩ := List.mem_map.mp hy
      exact Nat.le_of_lt hab

/-- The examples meet the hypotheses of C30. -/
example : Spec.ValidCsr exCsr true ∧ exCsr.m < 2 ^ 32 ∧ Storage.shared ≠ .vector ∧ Holds exCoo true exCooEntries ∧
    (convertCoo 32 32 4 true exCoo >>= convertCsr 32 4 .shared {} true).Any :=
  ⟨exCsr_valid, by decide, by decide, exCoo_holds, R.Any.bind (convertCoo_any (by omega) _ _) (fun _ => convertCsr_any (by omega) _ _ _ _)⟩

/-! ## C31 -/

/-- C31 does not hold: `nrows()` and `ncols()` of a COO constructed from a CSR are whatever the memory
contained; every pair of values is possible, for every valid CSR. -/
theorem C31_dimensions_violated [Inhabited W] (ow T : Nat) (hT : 0 < T) (stor : Storage) (wgt : Bool) (c : Csr W)
    (hc : Spec.ValidCsr c wgt) (hs : wgt = true → stor ≠ .vector) (hm : c.m < 2 ^ ow) (a b : Nat) :
    ∃ r, (convertCsr ow T stor {} wgt c).Out (.ok r) ∧ r.nrows = a ∧ r.ncols = b := by
  have : Nonempty (Junk W) := ⟨⟨fun _ => 0, fun _ => 0, fun _ => default⟩⟩
  let rest : Nat → Nat → R (Coo W) := fun nrows ncols => do
    let m ← R.lift (.ok c.m)
    let j ← R.any (Junk W)
    let its ← R.choose (OmpDyn c.n T)
    let threads ← R.lift (mapE (fun vs => mapE (csrRow stor {} wgt c) vs) its)
    let mem ← R.par stepAct (threads.map List.flatten) (allocCoo wgt j m)
    pure { x := mem.x, y := mem.y, w := mem.w, n := c.n, m := m, nrows := nrows, ncols := ncols }
  have hany : (rest a b).Any :=
    R.Any.bind (R.Any.lift _) (fun _ => R.Any.bind R.Any.any (fun _ => R.Any.bind (R.Any.choose (OmpFor.one _ _ hT).dyn) (fun _ =>
      R.Any.bind (R.Any.lift _) (fun _ => R.Any.bind (R.Any.par ..) (fun _ => R.Any.pure _)))))
  obtain ⟨out, hout⟩ := hany
  have hout' : (convertCsr ow T stor {} wgt c).Out out := ⟨.ok a, ⟨a, trivial, rfl⟩, .ok b, ⟨b, trivial, rfl⟩, hout⟩
  obtain ⟨r, rfl, _⟩ := C27_csr_to_coo ow T stor wgt c hc hs hm out hout'
  refine ⟨r, hout', ?_⟩
  have key : ∀ out, (rest a b).Out out → ∀ r, out = .ok r → r.nrows = a ∧ r.ncols = b := by
    rintro out ⟨_, rfl, _, ⟨j, _, rfl⟩, _, ⟨its, _, rfl⟩, o, ho, h⟩ r rfl
    cases o with
    | error f => cases h
    | ok th =>
      obtain ⟨o2, _, h⟩ := h
      cases o2 with
      | error f => cases h
      | ok mem => injection h with h; subst h; exact ⟨rfl, rfl⟩
  exact key _ hout r rfl

/-- C31, proved part: `n()` and `m()` are those of the CSR. -/
theorem C31_sizes_partial [Inhabited W] (ow T : Nat) (stor : Storage) (wgt : Bool) (c : Csr W)
    (hc : Spec.ValidCsr c wgt) (hs : wgt = true → stor ≠ .vector) (hm : c.m < 2 ^ ow) :
    (convertCsr ow T stor {} wgt c).All (fun r => r.n = c.n ∧ r.m = c.m) :=
  (C27_csr_to_coo ow T stor wgt c hc hs hm).mono (fun _ h => ⟨h.1, h.2.1⟩)

example : Spec.ValidCsr exCsr true ∧ exCsr.m < 2 ^ 8 := ⟨exCsr_valid, by decide⟩

/-! ## C68 -/

theorem mapE_error {α β : Type} {f : α → M β} {l : List α} (h : ∀ a ∈ l, (∃ b, f a = .ok b) ∨ f a = .error .oob)
    (he : ∃ a ∈ l, f a = .error .oob) : mapE f l = .error .oob := by
  induction l with
  | nil => obtain ⟨a, ha, _⟩ := he; cases ha
  | cons x l ih =>
    rcases h x (List.mem_cons_self ..) with ⟨b, hb⟩ | hx
    · rw [mapE, hb, ok_bind, ih (fun a ha => h a (List.mem_cons_of_mem _ ha)) ?_]; rfl
      obtain ⟨a, ha, hf⟩ := he
      rcases List.mem_cons.mp ha with rfl | ha
      · rw [hb] at hf; cases hf
      · exact ⟨a, ha, hf⟩
    · rw [mapE, hx]; rfl

theorem mapE_total {α β : Type} {f : α → M β} {l : List α} (h : ∀ a ∈ l, (∃ b, f a = .ok b) ∨ f a = .error .oob) :
    (∃ bs, mapE f l = .ok bs) ∨ mapE f l = .error .oob := by
  by_cases he : ∃ a ∈ l, f a = .error .oob
  · exact .inr (mapE_error h he)
  · left
    induction l with
    | nil => exact ⟨[], rfl⟩
    | cons x l ih =>
      rcases h x (List.mem_cons_self ..) with ⟨b, hb⟩ | hx
      · obtain ⟨bs, hbs⟩ := ih (fun a ha => h a (List.mem_cons_of_mem _ ha)) (fun ⟨a, ha, hf⟩ => he ⟨a, List.mem_cons_of_mem _ ha, hf⟩)
        exact ⟨b :: bs, by rw [mapE, hb, ok_bind, hbs]; rfl⟩
      · exact absurd ⟨x, List.mem_cons_self .., hx⟩ he

/-- C68 does not hold: with vector storage, converting a weighted CSR with at least one entry reads the
weights through a dangling pointer, in every execution. -/
theorem C68_vector_weights_violated [Inhabited W] (ow T : Nat) (c : Csr W) (hc : Spec.ValidCsr c true) (hm : 0 < c.m)
    (out : M (Coo W)) : (convertCsr ow T .vector {} true c).Out out → out = .error .oob := by
  have hi := isCsr_of_valid hc (default : W)
  generalize rowsOfCsr true default c = rows at hi
  have hrow : ∀ v, v < rows.length → csrRow .vector {} true c v =
      if (rows.getD v []) = [] then .ok [] else .error .oob := by
    intro v hv
    obtain ⟨h1, h2, h3, h4⟩ := hi.load_row (getD_some hv)
    unfold csrRow
    rw [h1, ok_bind, h2, ok_bind, h3, ok_bind]
    by_cases he : rows.getD v [] = []
    · rw [if_pos he]
      rw [he] at h4 ⊢
      simp only [loadWeights, if_true]
      rw [if_neg (by simp), h4 rfl]
      rfl
    · have hl : 0 < (rows.getD v []).length := List.length_pos_iff.mpr he
      rw [if_neg he]
      simp only [loadWeights, if_true]
      rw [if_pos ⟨trivial, by omega⟩]; rfl
  rintro ⟨_, ⟨a, _, rfl⟩, _, ⟨b, _, rfl⟩, _, rfl, _, ⟨j, _, rfl⟩, _, ⟨its, hits, rfl⟩, o, rfl, h⟩
  have hlt : ∀ v ∈ its.flatten, v < rows.length := by
    intro v hv
    have := List.mem_range.mp (hits.all.mem_iff.mp hv)
    rw [← hi.n]; exact this
  have hcase : ∀ v ∈ its.flatten, (∃ b, csrRow .vector {} true c v = .ok b) ∨ csrRow .vector {} true c v = .error .oob := by
    intro v hv
    rw [hrow v (hlt v hv)]
    split
    · exact .inl ⟨_, rfl⟩
    · exact .inr rfl
  have hne : ∃ v, v < rows.length ∧ rows.getD v [] ≠ [] := by
    have hpos : 0 < rows.flatten.length := by rw [← hi.m]; exact hm
    obtain ⟨x, hx⟩ := List.exists_mem_of_length_pos hpos
    obtain ⟨r, hr, hxr⟩ := List.mem_flatten.mp hx
    obtain ⟨v, hv, rfl⟩ := List.mem_iff_getElem.mp hr
    refine ⟨v, hv, ?_⟩
    rw [List.getD_eq_getElem?_getD, List.getElem?_eq_getElem hv]
    exact List.ne_nil_of_mem hxr
  obtain ⟨v, hv, hr⟩ := hne
  have hmem : v ∈ its.flatten := hits.all.mem_iff.mpr (List.mem_range.mpr (by rw [hi.n]; exact hv))
  obtain ⟨vs, hvs, hvv⟩ := List.mem_flatten.mp hmem
  have herr : mapE (fun vs => mapE (csrRow .vector {} true c) vs) its = .error .oob := by
    apply mapE_error
    · intro vs hvs
      exact mapE_total (fun v hv => hcase v (List.mem_flatten.mpr ⟨vs, hvs, hv⟩))
    · exact ⟨vs, hvs, mapE_error (fun v hv => hcase v (List.mem_flatten.mpr ⟨vs, hvs, hv⟩)) ⟨v, hvv, by rw [hrow v hv, if_neg hr]⟩⟩
  rw [herr] at h
  exact h

/-- C68, proved part: with shared-pointer or raw-pointer storage the weights are those of the CSR. -/
theorem C68_other_storage_partial [Inhabited W] (ow T : Nat) (stor : Storage) (hs : stor ≠ .vector) (c : Csr W)
    (hc : Spec.ValidCsr c true) (hm : c.m < 2 ^ ow) :
    (convertCsr ow T stor {} true c).All (fun r => r.w = c.weights) :=
  (C27_csr_to_coo ow T stor true c hc (fun _ => hs) hm).mono (fun _ h => h.2.2.2.2.1 rfl)

example : Spec.ValidCsr exCsr true ∧ 0 < exCsr.m ∧ (convertCsr 32 4 .vector {} true exCsr).Any :=
  ⟨exCsr_valid, by decide, convertCsr_any (by omega) _ _ _ _⟩

end Pigo
