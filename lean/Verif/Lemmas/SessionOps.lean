import Verif.Lemmas.Session

/-!
# The operations of a program on the graphs the objects hold
-/

namespace Pigo.Session

variable {W : Type}

/-- What is asked of the types: labels leave room for `N` vertices, `ok` are the weights the types can hold. -/
structure TypesOk (E : Types W) (N : Nat) (ok : W → Prop) : Prop where
  lb : 0 < E.lb ∧ E.lb < 256
  ob : E.ob < 256
  N : N + 1 < 2 ^ (8 * E.lb)
  cw : E.wk.wgt = true → ∀ w, ok w → E.cw.ok w
  all : E.wk.wgt = false → ∀ w, ok w
  wlt : Pigo.Spec.StrictWeak E.wlt

/-- The graph has at most `N` vertices, its edges are between its vertices, its weights are allowed. -/
structure Within (N : Nat) (ok : W → Prop) (s : Net W) : Prop where
  n : s.n ≤ N
  ends : ∀ e ∈ s.es, e.1 < s.n ∧ e.2.1 < s.n
  w : ∀ e ∈ s.es, ∀ w, e.2.2 = some w → ok w

theorem within_raw {E : Types W} {N : Nat} {ok : W → Prop} (hE : TypesOk E N ok) {s : Net W} (hs : Within N ok s)
    {es : List (Nat × Nat × W)} (hp : (es.map (view E.wk.wgt)).Perm s.es) :
    ∀ e ∈ es, e.1 < s.n ∧ e.2.1 < s.n ∧ ok e.2.2 := by
  intro e he
  have hm := hp.mem_iff.mp (List.mem_map_of_mem (f := view E.wk.wgt) he)
  obtain ⟨h1, h2⟩ := hs.ends _ hm
  refine ⟨h1, h2, ?_⟩
  cases hw : E.wk.wgt with
  | false => exact hE.all hw _
  | true => exact hs.w _ hm _ (by simp [view, wOpt, hw])

theorem perm_len {wgt : Bool} {s : Net W} {es : List (Nat × Nat × W)} (hp : (es.map (view wgt)).Perm s.es) : es.length = s.es.length := by
  rw [← hp.length_eq, List.length_map]

theorem fit_of {E : Types W} {N n : Nat} {ok : W → Prop} (hE : TypesOk E N ok) (hn : n ≤ N) : Pigo.Spec.OffsetsFit (8 * E.lb) n := by
  have := hE.N
  exact .inr (by omega)

variable [Inhabited W] {E : Types W} {N : Nat} {ok : W → Prop}

theorem copy_is {T : Nat} {wgt : Bool} {c : Coo W} {s : Net W} (h : Spec.CooIs wgt c s) :
    (copyCoo T wgt c).All (fun r => Spec.CooIs wgt r s) := by
  refine (copyCoo_all h.x h.y h.w).mono (fun r hr => ?_)
  obtain ⟨es, hh, hp⟩ := cooIs_holds h
  rw [hr]
  exact cooIs_of (copy_holds hh) h.n hp

theorem transpose_is {wgt : Bool} {c : Coo W} {s : Net W} (h : Spec.CooIs wgt c s) : Spec.CooIs wgt (transposeCoo c) ⟨s.n, s.es.map Spec.swap⟩ := by
  obtain ⟨es, hh, hp⟩ := cooIs_holds h
  exact cooIs_of (transpose_holds hh) h.n (transposed_view hp)

omit [Inhabited W] in
theorem cooIs_pigo {c : Coo W} {wgt : Bool} {es : List (Nat × Nat × W)} (h : Holds c wgt es) : Pigo.Spec.CooIs c wgt es c.n c.nrows c.ncols :=
  ⟨h, rfl, rfl, rfl⟩

theorem toCsr_is (hE : TypesOk E N ok) {T : Nat} (hT : 0 < T) {c : Coo W} {s : Net W} (h : Spec.CooIs E.wk.wgt c s) (hs : Within N ok s)
    (hm : s.es.length < 2 ^ (8 * E.ob)) :
    (convertCoo (8 * E.lb) (8 * E.ob) T E.wk.wgt c).All (fun r => Spec.CsrIs E.wk.wgt r s) := by
  obtain ⟨es, hh, hp⟩ := cooIs_holds h
  have hr := within_raw hE hs hp
  refine (convert_rowsOf hT (cooIs_pigo hh) (fun e he => by rw [h.n]; exact ⟨(hr e he).1, (hr e he).2.1⟩) (by rw [perm_len hp]; exact hm)
    (fit_of hE (by rw [h.n]; exact hs.n))).mono (fun r h1 => ?_)
  exact rowsOf_is h1 (fun e he => by rw [h.n]; exact (hr e he).1) h.n hp

theorem graph_is_of (hE : TypesOk E N ok) {g : DiGraph W} {s : Net W} {n : Nat} {es : List (Nat × Nat × W)} (hn : n = s.n)
    (hs : Within N ok s) (hp : (es.map (view E.wk.wgt)).Perm s.es) (h1 : Pigo.Spec.RowsOf g.outG E.wk.wgt n es)
    (h2 : Pigo.Spec.RowsOf g.inG E.wk.wgt n (Pigo.Spec.transposed es)) : Spec.Is E.wk.wgt .graph g s := by
  have hr := within_raw hE hs hp
  refine ⟨rowsOf_is h1 (fun e he => by rw [hn]; exact (hr e he).1) hn hp, rowsOf_is h2 ?_ hn (transposed_view hp)⟩
  intro e he
  obtain ⟨e', he', rfl⟩ := List.mem_map.mp he
  rw [hn]
  exact (hr e' he').2.1

theorem toGraph_is (hE : TypesOk E N ok) {T : Nat} (hT : 0 < T) {c : Coo W} {s : Net W} (h : Spec.CooIs E.wk.wgt c s) (hs : Within N ok s)
    (hm : s.es.length < 2 ^ (8 * E.ob)) :
    (fromCoo (8 * E.lb) (8 * E.ob) T E.wk.wgt c).All (fun g => Spec.Is E.wk.wgt .graph g s) := by
  obtain ⟨es, hh, hp⟩ := cooIs_holds h
  have hr := within_raw hE hs hp
  refine (twoGraphs_rowsOf hT (cooIs_pigo hh) (fun e he => by rw [h.n]; exact ⟨(hr e he).1, (hr e he).2.1⟩) (by rw [perm_len hp]; exact hm)
    (fit_of hE (by rw [h.n]; exact hs.n))).mono (fun g hg => ?_)
  exact graph_is_of hE h.n hs hp hg.1.1 hg.2

theorem toMatrix_is (hE : TypesOk E N ok) {T : Nat} (hT : 0 < T) {c : Coo W} {s : Net W} (h : Spec.CooIs E.wk.wgt c s) (hs : Within N ok s)
    (hm : s.es.length < 2 ^ (8 * E.ob)) :
    (matrixFromCoo (8 * E.lb) (8 * E.ob) T E.wk.wgt c).All (fun g => Spec.Is E.wk.wgt .matrix g s) :=
  matrixFromCoo_eq (Q := fun a b => Spec.CsrIs E.wk.wgt a s ∧ Spec.CsrIs E.wk.wgt b ⟨s.n, s.es.map Spec.swap⟩) (toGraph_is hE hT h hs hm)

/-! ## CSR to COO -/

omit [Inhabited W] in
theorem csrEntries_flat (cfg : Cfg) (rows : List (List (Nat × W))) :
    csrEntries cfg rows = (rowTriples rows).flatMap (fun t => (Pigo.Spec.flagged cfg (t.1, t.2.1)).map (fun q => (q.1, q.2, t.2.2))) := by
  rw [csrEntries, rowTriples, List.flatMap_assoc]
  apply flatMap_congr'
  intro v _
  rw [List.flatMap_map]
  apply flatMap_congr'
  intro p _
  rw [csrEntryW, ← csrEntry_flagged]

omit [Inhabited W] in
theorem flatMap_one {α β : Type} (f : α → β) : ∀ l : List α, l.flatMap (fun a => [f a]) = l.map f
  | [] => rfl
  | a :: l => by rw [List.flatMap_cons, flatMap_one f l]; rfl

omit [Inhabited W] in
theorem flatMap_two {α β : Type} (f g : α → β) : ∀ l : List α, (l.flatMap (fun a => [f a, g a])).Perm (l.map g ++ l.map f)
  | [] => .refl _
  | a :: l => by
    rw [List.flatMap_cons, List.map_cons, List.map_cons]
    have ih := flatMap_two f g l
    refine ((ih.cons (g a)).cons (f a)).trans ?_
    exact (List.perm_middle (a := f a) (l₁ := g a :: l.map g) (l₂ := l.map f)).symm

/-- The graph after the conversion with flags. -/
def flagNet (f : Flags) (s : Net W) : Net W :=
  match f with
  | .none => s
  | .symmetric => ⟨s.n, s.es ++ s.es.map Spec.swap⟩
  | .symmetricUpper => ⟨s.n, s.es.map Spec.order⟩

/-- The factor of the number of edges. -/
def flagFactor : Flags → Nat
  | .symmetric => 2
  | _ => 1

theorem toCoo_is {ow T : Nat} {stor : Storage} {wgt : Bool} {c : Csr W} {s : Net W} (f : Flags) (h : Spec.CsrIs wgt c s)
    (hst : wgt = true → stor ≠ .vector) (hm : flagFactor f * s.es.length < 2 ^ ow) :
    (convertCsr ow T stor f.cfg wgt c).All (fun r => Spec.CooIs wgt r (flagNet f s)) := by
  obtain ⟨rows, hi, hp⟩ := csrIs_rows h
  have hcm : c.m = s.es.length := by
    rw [← perm_len hp]
    have := congrArg List.length (csrEntries_plain rows)
    rw [← this]
    have h2 := ValidCsr.pairs_length hi
    have h3 := congrArg List.length (csrEntries_xy hi {})
    rw [List.length_map] at h3
    rw [h3, h2]
    have : (Pigo.Spec.pairs c).flatMap (fun p => csrEntry {} p.1 p.2) = Pigo.Spec.pairs c := by
      have := flatMap_one (fun p : Nat × Nat => p) (Pigo.Spec.pairs c)
      rw [List.map_id''] at this
      · exact this
      · intro x; rfl
    rw [this]
  have hfac : csrFactor f.cfg = flagFactor f := by cases f <;> rfl
  refine (convertCsr_all (cfg := f.cfg) hi hst (by cases f <;> rfl) (by cases f <;> simp [Flags.cfg]) (by rw [hfac, hcm]; exact hm)).mono (fun r hr => ?_)
  obtain ⟨hn, hh⟩ := hr
  refine cooIs_of hh (by rw [hn, h.n]; cases f <;> rfl) ?_
  rw [csrEntries_flat]
  cases f with
  | none =>
    have e : (fun t : Nat × Nat × W => (Pigo.Spec.flagged Flags.none.cfg (t.1, t.2.1)).map (fun q => (q.1, q.2, t.2.2))) = fun t => [t] := rfl
    rw [e, flatMap_one (fun t => t), List.map_id'' (fun t => rfl)]
    exact hp
  | symmetric =>
    have e : (fun t : Nat × Nat × W => (Pigo.Spec.flagged Flags.symmetric.cfg (t.1, t.2.1)).map (fun q => (q.1, q.2, t.2.2))) =
      fun t => [(t.2.1, t.1, t.2.2), t] := rfl
    rw [e]
    refine ((flatMap_two (fun t : Nat × Nat × W => (t.2.1, t.1, t.2.2)) (fun t => t) _).map (view wgt)).trans ?_
    rw [List.map_append, List.map_id'' (fun t => rfl)]
    exact hp.append (transposed_view hp)
  | symmetricUpper =>
    have e : (fun t : Nat × Nat × W => (Pigo.Spec.flagged Flags.symmetricUpper.cfg (t.1, t.2.1)).map (fun q => (q.1, q.2, t.2.2))) =
      fun t => [(min t.1 t.2.1, max t.1 t.2.1, t.2.2)] := rfl
    rw [e, flatMap_one (fun t : Nat × Nat × W => (min t.1 t.2.1, max t.1 t.2.1, t.2.2)), List.map_map]
    have := hp.map Spec.order
    rw [List.map_map] at this
    exact this

/-! ## sorting -/

theorem sort_is {T : Nat} {wgt : Bool} {wlt : W → W → Prop} {c : Csr W} {s : Net W} (h : Spec.CsrIs wgt c s) :
    (sortCsr T wgt wlt c).All (fun r => Spec.CsrIs wgt r s) := by
  obtain ⟨rows, hi, hp⟩ := csrIs_rows h
  refine (sortCsr_all (T := T) (wlt := wlt) hi).mono (fun r hr => ?_)
  obtain ⟨rows', h1, hlen, hn, _, _, _, _, _, hrows⟩ := hr
  refine csrIs_of h1 (by rw [hn, h.n]) (List.Perm.trans ?_ hp)
  rw [rowTriples, rowTriples, map_flatMap', map_flatMap', hlen]
  refine flatMap_perm _ (fun v hv => ?_)
  have hv := List.mem_range.mp hv
  obtain ⟨g1, _, g3⟩ := hrows v _ _ (getD_some hv) (getD_some (by rw [hlen]; exact hv))
  rw [List.map_map, List.map_map]
  cases hw : wgt with
  | true => exact (g3 hw).1.map _
  | false =>
    have := g1.map (fun u => (v, u, (none : Option W)))
    rw [List.map_map, List.map_map] at this
    exact this

end Pigo.Session
