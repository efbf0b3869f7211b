import Verif.Lemmas.EdgeIter
import Verif.Props.Alias

/-!
# Loops over the neighbors of a vertex

C105. `for (auto& u : g.neighbors(v)) …`, with the storage of the endpoints a raw pointer, a `shared_ptr` or a `vector` (`Model/EdgeIter`;
specification in `Spec/EdgeIter`).
-/

namespace Pigo.Alias

open Pigo.Life (HFault HM Val)

/-! ## One loop -/

theorem Stored.mem {h : Heap} {g : Obj} {p : Nat} {ep off : List Nat} (H : Spec.Stored h g p ep off) : ∃ c, h.mem p = some (ep, c) := by
  cases e : h.mem p with
  | none => exact absurd e H.live
  | some bc =>
    have := H.endpoints
    rw [contents_some (b := bc.1) (c := bc.2) e] at this
    exact ⟨bc.2, by rw [← this]⟩

theorem assigning_body (f : Nat → Option Nat) (h0 : Heap) (row : List Nat) : Body (assigning f) f id h0 row (fun _ => True) :=
  ⟨fun _ _ _ => trivial, fun u _ h _ _ => ⟨h, rfl, rfl, Nat.le_refl _, trivial⟩, fun _ _ _ _ _ _ _ _ _ => trivial⟩

theorem reading_body (h0 : Heap) (row : List Nat) : Body (fun w h => .ok (none, w, h)) (fun _ => none) id h0 row (fun _ => True) :=
  ⟨fun _ _ _ => trivial, fun u _ h _ _ => ⟨h, rfl, rfl, Nat.le_refl _, trivial⟩, fun _ _ _ _ _ _ _ _ _ => trivial⟩

theorem upd_none (b : List Nat) {s e : Nat} (h : s ≤ e) : upd (fun _ => none) b s e = b := by
  unfold upd Spec.assigned Spec.slice
  simp only [Option.getD_none, List.map_id']
  rw [List.append_assoc]
  have : (b.drop s).take (e - s) ++ b.drop e = b.drop s := by
    have h2 := List.take_append_drop (e - s) (b.drop s)
    rwa [List.drop_drop, show s + (e - s) = e by omega] at h2
  rw [this, List.take_append_drop]

theorem memAfter_same {S : Stor} {h : Heap} {p : Nat} {b : List Nat} {c : Nat} (e : h.mem p = some (b, c)) : memAfter S h p b c = h.mem := by
  unfold memAfter
  split
  · rfl
  · funext a
    simp only [Heap.set]
    split
    · next ha => rw [ha, e]
    · rfl

/-- C105: a loop that reads the neighbors of a vertex visits the row of the vertex in order, and leaves the memory as it was: whatever the
storage type, no block stays allocated, none is released, and the numbers of owners are right. -/
theorem C105_read (lw ow : Nat) (S : Stor) (h : Heap) (g : Obj) (p v s e : Nat) (ep off : List Nat) (hst : Spec.Stored h g p ep off)
    (hr : Spec.RowAt lw ow ep off v s e) (H : Spec.Sane h) :
    ∃ h', forNeighbors lw ow S (fun u h => .ok (none, u, h)) g v h = .ok (Spec.slice ep s e, h') ∧ Spec.SameMemory h h' := by
  obtain ⟨c, hm⟩ := Stored.mem hst
  obtain ⟨h', e1, e2, _, _⟩ := forNeighbors_ok (S := S) hst hm hr H (reading_body h _)
  refine ⟨h', by rw [e1, List.map_id], ?_⟩
  rw [Spec.SameMemory, e2, upd_none _ hr.le, memAfter_same hm]

/-- C105: with raw pointers and `shared_ptr`s, assignments through the references of the loop reach the graph: the elements of the row are
replaced, and nothing else changes. -/
theorem C105_write (lw ow : Nat) (S : Stor) (hS : S ≠ .vec) (h : Heap) (g : Obj) (p v s e : Nat) (ep off : List Nat) (f : Nat → Option Nat)
    (hst : Spec.Stored h g p ep off) (hr : Spec.RowAt lw ow ep off v s e) (H : Spec.Sane h) :
    ∃ h', forNeighbors lw ow S (assigning f) g v h = .ok (Spec.slice ep s e, h') ∧ Spec.Stored h' g p (Spec.assigned ep s e f) off ∧
      (∀ a, a ≠ p → h'.mem a = h.mem a) ∧ (h'.mem p).map Prod.snd = (h.mem p).map Prod.snd := by
  obtain ⟨c, hm⟩ := Stored.mem hst
  obtain ⟨h', e1, e2, _, _⟩ := forNeighbors_ok (S := S) hst hm hr H (assigning_body f h _)
  rw [memAfter, if_neg hS] at e2
  have hmp : h'.mem p = some (Spec.assigned ep s e f, c) := by rw [e2]; simp [Heap.set, upd]
  have hoth : ∀ a, a ≠ p → h'.mem a = h.mem a := fun a ha => by rw [e2]; simp [Heap.set, ha]
  refine ⟨h', by rw [e1, List.map_id], ⟨hst.slot, contents_some hmp, by rw [hmp]; simp, ?_, hst.other⟩, hoth, by rw [hmp, hm]; rfl⟩
  rw [← hst.offsets]
  cases hq : g.slots.getD 1 none with
  | none => rfl
  | some q =>
    have : q ≠ p := fun hqp => hst.other (by rw [hq, hqp])
    simp only [contents, Option.bind_some, hoth q this]

/-- C105 fails for `vector`s: the loop assigns to the elements of a copy of the endpoints, and the graph stays as it was. -/
theorem C105_vector_violated (lw ow : Nat) (h : Heap) (g : Obj) (p v s e : Nat) (ep off : List Nat) (f : Nat → Option Nat)
    (hst : Spec.Stored h g p ep off) (hr : Spec.RowAt lw ow ep off v s e) (H : Spec.Sane h) (hf : ∃ u ∈ Spec.slice ep s e, ∃ x, f u = some x ∧ x ≠ u) :
    ∃ h', forNeighbors lw ow .vec (assigning f) g v h = .ok (Spec.slice ep s e, h') ∧ Spec.SameMemory h h' ∧
      contents h' (g.slots.getD 0 none) ≠ Spec.assigned ep s e f := by
  obtain ⟨c, hm⟩ := Stored.mem hst
  obtain ⟨h', e1, e2, _, _⟩ := forNeighbors_ok (S := .vec) hst hm hr H (assigning_body f h _)
  rw [memAfter, if_pos rfl] at e2
  refine ⟨h', by rw [e1, List.map_id], e2, ?_⟩
  have hc : contents h' (g.slots.getD 0 none) = ep := by
    rw [hst.slot, ← hst.endpoints]
    simp only [contents, Option.bind_some, e2]
  rw [hc]
  intro heq
  have hsl : Spec.slice (Spec.assigned ep s e f) s e = (Spec.slice ep s e).map (fun u => (f u).getD u) := by
    have hle := hr.le
    have hroom := hr.room
    unfold Spec.assigned Spec.slice
    rw [List.append_assoc, List.drop_append, List.drop_eq_nil_of_le (by simp; omega), List.nil_append]
    have : s - (ep.take s).length = 0 := by simp; omega
    rw [this, List.drop_zero, List.take_append, List.take_of_length_le (by simp; omega)]
    have : e - s - (((ep.drop s).take (e - s)).map (fun u => (f u).getD u)).length = 0 := by simp; omega
    rw [this, List.take_zero, List.append_nil]
  rw [← heq] at hsl
  obtain ⟨u, hu, x, hx, hne⟩ := hf
  obtain ⟨i, hi, hiu⟩ := List.mem_iff_getElem.mp hu
  have h1 : (Spec.slice ep s e)[i]? = some u := by rw [List.getElem?_eq_getElem hi, hiu]
  have h2 : ((Spec.slice ep s e).map (fun u => (f u).getD u))[i]? = some x := by
    rw [List.getElem?_map, h1]; simp [hx]
  rw [← hsl, h1] at h2
  exact hne (Option.some.inj h2).symm

theorem stored_ext {h h' : Heap} {g : Obj} {p : Nat} {ep off : List Nat} (hst : Spec.Stored h g p ep off) (x : Ext h h')
    (hoff : off ≠ []) : Spec.Stored h' g p ep off := by
  obtain ⟨c, hm⟩ := Stored.mem hst
  obtain ⟨c', hm', _⟩ := x p ep c hm
  refine ⟨hst.slot, contents_some hm', by rw [hm']; simp, ?_, hst.other⟩
  have ho := hst.offsets
  cases hq : g.slots.getD 1 none with
  | none => rw [hq, contents_none] at ho; exact absurd ho.symm hoff
  | some q =>
    rw [hq] at ho
    cases hqm : h.mem q with
    | none => simp only [contents, Option.bind_some, hqm, Option.map_none, Option.getD_none] at ho; exact absurd ho.symm hoff
    | some bd =>
      rw [contents_some (b := bd.1) (c := bd.2) hqm] at ho
      obtain ⟨d, hd, _⟩ := x q bd.1 bd.2 hqm
      rw [contents_some hd, ho]

/-- C105: nested loops (`for (auto u : g.neighbors(v)) for (auto w : g.neighbors(u)) …`), with several iterators of the same graph in use, give
the neighbors of the neighbors, and leave the memory as it was. -/
theorem C105_two_hop (lw ow : Nat) (S : Stor) (h : Heap) (g : Obj) (p v s e : Nat) (ep off : List Nat) (st en : Nat → Nat)
    (hst : Spec.Stored h g p ep off) (hr : Spec.RowAt lw ow ep off v s e)
    (hrow : ∀ u ∈ Spec.slice ep s e, Spec.RowAt lw ow ep off u (st u) (en u)) (H : Spec.Sane h) :
    ∃ h', twoHop lw ow S g v h = .ok ((Spec.slice ep s e).map (fun u => (Spec.slice ep (st u) (en u)).map (fun w => (u, w))), h') ∧
      Spec.SameMemory h h' := by
  obtain ⟨c, hm⟩ := Stored.mem hst
  have hoff : off ≠ [] := by rintro rfl; simpa using hr.start
  have B : Body (fun u h => (do
      let (ws, h) ← forNeighbors lw ow S (fun w h => .ok (none, w, h)) g u h
      .ok (none, ws.map (fun w => (u, w)), h) : HM (Option Nat × List (Nat × Nat) × Heap)))
      (fun _ => none) (fun u => (Spec.slice ep (st u) (en u)).map (fun w => (u, w))) h (Spec.slice ep s e) (Ext h) := by
    refine ⟨fun h' H' x => x, ?_, fun _ _ _ _ _ _ _ hf => by cases hf⟩
    intro u hu h1 H1 x
    have hst1 := stored_ext hst x hoff
    obtain ⟨c1, hm1⟩ := Stored.mem hst1
    obtain ⟨h', e1, e2, e3, e4⟩ := forNeighbors_ok (S := S) hst1 hm1 (hrow u hu) H1 (reading_body h1 _)
    rw [upd_none _ (hrow u hu).le, memAfter_same hm1] at e2
    refine ⟨h', ?_, e2, e4, x.of_mem e2⟩
    rw [bind_ok e1, List.map_id]
  obtain ⟨h', e1, e2, _, _⟩ := forNeighbors_ok (S := S) hst hm hr H B
  exact ⟨h', e1, by rw [Spec.SameMemory, e2, upd_none _ hr.le, memAfter_same hm]⟩

/-! ## Programs with loops -/

theorem forNeighbors_null {β : Type} {lw ow : Nat} {S : Stor} {body : Nat → Heap → HM (Option Nat × β × Heap)} {h : Heap} {o : Obj} {v q d : Nat}
    {off : List Nat} (h0 : o.slots.getD 0 none = none) (hq : o.slots.getD 1 none = some q) (hqm : h.mem q = some (off, d))
    (h1 : off[v]? = some 0) (h2 : off[v + 1]? = some 0) (hl : lw < 32 ∨ v + 1 < 2 ^ lw) : forNeighbors lw ow S body o v h = .ok ([], h) := by
  have hplus : plusOne lw v = v + 1 := by
    unfold plusOne
    rcases hl with h1 | h1
    · rw [if_pos h1]
    · split
      · rfl
      · exact Nat.mod_eq_of_lt h1
  have hmem : member S none h = .ok (none, h) := by cases S <;> rfl
  have hdrop : drop S none h = .ok h := by cases S <;> rfl
  have hloop : edgeLoop ow body none (2 ^ ow) 0 0 h = .ok ([], h) := by
    obtain ⟨k, hk⟩ := Nat.exists_eq_succ_of_ne_zero (Nat.pos_iff_ne_zero.mp (Nat.two_pow_pos ow))
    rw [hk, edgeLoop, if_pos rfl]
  unfold forNeighbors edgesOf
  rw [hq, h0, hplus, bind_ok (elem_eq hqm h1), bind_ok (elem_eq hqm h2), bind_ok hmem]
  show (iterateOver ow S body ⟨0, 0, none⟩ h >>= _) = _
  have : iterateOver ow S body ⟨0, 0, none⟩ h = .ok ([], h) := by
    unfold iterateOver
    rw [bind_ok hmem]
    dsimp only
    rw [bind_ok hmem]
    dsimp only
    rw [bind_ok hloop]
    dsimp only
    rw [bind_ok hdrop, bind_ok hdrop]
  rw [bind_ok this]
  dsimp only
  rw [bind_ok hdrop]

theorem Inv.sane {S : Stor} {U : Prop} {st : State} (I : Inv S U st) : Spec.Sane st.heap :=
  ⟨I.cnt.next, fun a b c e => by have := I.cnt.used a b c e; omega⟩

theorem assigned_length (ep : List Nat) {s e : Nat} (f : Nat → Option Nat) (h : s ≤ e) : (Spec.assigned ep s e f).length = ep.length := by
  unfold Spec.assigned Spec.slice
  simp
  omega

theorem cnt_two {ss : List Slot} {p : Nat} (h : cnt ss p ≤ 1) (h0 : ss.getD 0 none = some p) : ss.getD 1 none ≠ some p := by
  match ss, h0 with
  | [_], _ => simp
  | a :: b :: l, h0 =>
    intro h1
    simp only [List.getD_cons_zero, List.getD_cons_succ] at h0 h1
    subst h0; subst h1
    simp only [cnt, own_self] at h
    omega

/-- A loop over a graph in a program. -/
theorem loop_effect {S : Stor} {U : Prop} {st : State} (I : Inv S U st) {lw ow i v s e : Nat} {g : Obj} (f : Nat → Option Nat) (hi : st.at i = some g)
    (hr : Spec.RowAt lw ow (contents st.heap (g.slots.getD 0 none)) (contents st.heap (g.slots.getD 1 none)) v s e) :
    ∃ h', forNeighbors lw ow S (assigning f) g v st.heap = .ok (Spec.slice (contents st.heap (g.slots.getD 0 none)) s e, h') ∧
      Cnt h' (refs st.objs) ∧ ∀ q : Slot, contents h' q =
        if S ≠ .vec ∧ q = g.slots.getD 0 none then Spec.assigned (contents st.heap q) s e f else contents st.heap q := by
  obtain ⟨q, d, hq, hqm⟩ : ∃ q d, g.slots.getD 1 none = some q ∧ st.heap.mem q = some (contents st.heap (g.slots.getD 1 none), d) := by
    have h2 := hr.start
    cases hs : g.slots.getD 1 none with
    | none => rw [hs] at h2; simp [contents] at h2
    | some q =>
      rw [hs] at h2
      cases hqm : st.heap.mem q with
      | none => simp [contents, hqm] at h2
      | some bd => exact ⟨q, bd.2, rfl, by rw [contents_some (b := bd.1) (c := bd.2) hqm]; exact hqm⟩
  cases hp : g.slots.getD 0 none with
  | none =>
    rw [hp] at hr
    have h1 := hr.room
    have h2 := hr.le
    simp only [contents_none, List.length_nil] at h1
    obtain rfl : e = 0 := by omega
    obtain rfl : s = 0 := by omega
    refine ⟨st.heap, ?_, I.cnt, ?_⟩
    · rw [forNeighbors_null hp hq hqm hr.start hr.stop hr.label]; simp [Spec.slice, contents_none]
    · intro q'
      split
      · next hc => rw [hc.2, contents_none]; simp [Spec.assigned, Spec.slice]
      · rfl
  | some p =>
    have hmem : some p ∈ g.slots := by
      rw [← hp, List.getD_eq_getElem?_getD]
      cases hx : g.slots[0]? with
      | none => rw [List.getD_eq_getElem?_getD, hx] at hp; cases hp
      | some x => exact List.mem_of_getElem? hx
    obtain ⟨b, hm⟩ := I.cnt.isSome (refs_pos hi hmem)
    have hb : contents st.heap (some p) = b := contents_some hm
    rw [hp] at hr
    rw [hb] at hr ⊢
    have hst : Spec.Stored st.heap g p b (contents st.heap (g.slots.getD 1 none)) :=
      ⟨hp, hb, by rw [hm]; simp, rfl, cnt_two ((I.ok i g hi).uniq p) hp⟩
    obtain ⟨h', e1, e2, e3, e4⟩ := forNeighbors_ok (S := S) hst hm hr I.sane (assigning_body f st.heap _)
    refine ⟨h', by rw [e1, List.map_id], ?_, ?_⟩
    · unfold memAfter at e2
      split at e2
      · exact ⟨fun a ha => I.cnt.free a (by rw [← e2]; exact ha), fun a b c ha => I.cnt.used a b c (by rw [← e2]; exact ha), e3.next⟩
      · have C := (set_ok I.cnt (b' := upd f b s e) hm).1
        exact ⟨fun a ha => C.free a (by rw [← e2]; exact ha), fun a b c ha => C.used a b c (by rw [← e2]; exact ha), e3.next⟩
    · intro q'
      unfold memAfter at e2
      cases q' with
      | none => rw [if_neg (by simp)]; rfl
      | some q' =>
        split at e2
        · next hv => rw [if_neg (by simp [hv])]; simp only [contents, Option.bind_some, e2]
        · next hv =>
          by_cases hqp : q' = p
          · subst hqp
            rw [if_pos ⟨hv, rfl⟩, hb, contents_some (b := upd f b s e) (c := refs st.objs q') (by rw [e2]; simp [Heap.set])]
            rfl
          · rw [if_neg (by rintro ⟨_, h⟩; exact hqp (Option.some.inj h))]
            simp only [contents, Option.bind_some, e2, Heap.set, if_neg hqp]

theorem Inv.rewrite {S : Stor} {U : Prop} {st : State} (I : Inv S U st) {h' : Heap} (C : Cnt h' (refs st.objs))
    (hl : ∀ s, (contents h' s).length = (contents st.heap s).length) : Inv S U ⟨st.objs, h'⟩ :=
  ⟨C, fun i o ho => ⟨(I.ok i o ho).len, fun t ht h => by rw [hl]; exact (I.ok i o ho).room t ht h, (I.ok i o ho).null, (I.ok i o ho).uniq⟩, I.uniq, I.deep⟩

theorem elem_ok {h : Heap} {s : Slot} {i x : Nat} (e : elem s i h = .ok x) : (contents h s)[i]? = some x := by
  unfold elem at e
  obtain ⟨⟨p, b, c⟩, e1, e2⟩ := bind_eq_ok e
  cases s with
  | none => cases e1
  | some q =>
    simp only [Heap.block] at e1
    split at e1
    · cases e1
    · next bc hbc =>
      cases e1
      rw [contents_some hbc]
      dsimp only at e2
      cases hx : b[i]? with
      | none => rw [hx] at e2; cases e2
      | some y => rw [hx] at e2; cases e2; rfl

theorem lengthOf_eq (h : Heap) (s : Slot) : lengthOf s h = (contents h s).length := by
  unfold lengthOf
  cases s with
  | none => rfl
  | some q =>
    simp only [Heap.block]
    cases hq : h.mem q with
    | none => simp [contents, hq]
    | some bc => rw [contents_some (b := bc.1) (c := bc.2) hq]

theorem rowFits_row {lw ow v : Nat} {g : Obj} {h : Heap} (hf : rowFits lw ow g v h = true) :
    ∃ s e, Spec.RowAt lw ow (contents h (g.slots.getD 0 none)) (contents h (g.slots.getD 1 none)) v s e := by
  unfold rowFits at hf
  split at hf
  · next s e h1 h2 =>
    obtain ⟨a, b, c, d⟩ := of_decide_eq_true hf
    exact ⟨s, e, elem_ok h1, elem_ok h2, a, by rw [← lengthOf_eq]; exact b, c, d⟩
  · cases hf

theorem good_act {S : Stor} (hS : S ≠ .raw) {lw ow : Nat} {st : State} (I : Inv S (S = .vec) st) (a : Act) :
    ∃ st', act lw ow S a st = .ok st' ∧ Inv S (S = .vec) st' := by
  cases a with
  | op o =>
    obtain ⟨st', e, I', _⟩ := good_step hS (U := S = .vec) id I o (fun h => Or.inl h)
    exact ⟨st', e, I'⟩
  | loop i v f =>
    simp only [act]
    split
    · next g hg =>
      split
      · split
        · next hf =>
          obtain ⟨s, e, hr⟩ := rowFits_row hf
          obtain ⟨h', e1, C, hc⟩ := loop_effect I f hg hr
          rw [bind_ok e1]
          refine ⟨_, rfl, I.rewrite C (fun q => ?_)⟩
          rw [hc]
          split
          · exact assigned_length _ _ hr.le
          · rfl
        · exact ⟨st, rfl, I⟩
      · exact ⟨st, rfl, I⟩
    · exact ⟨st, rfl, I⟩

theorem acts_good {S : Stor} (hS : S ≠ .raw) {lw ow : Nat} : ∀ (as : List Act) (st : State), Inv S (S = .vec) st →
    ∃ st', acts lw ow S as st = .ok st' ∧ Inv S (S = .vec) st'
  | [], st, I => ⟨st, rfl, I⟩
  | a :: as, st, I => by
    obtain ⟨s1, e1, I1⟩ := good_act hS (lw := lw) (ow := ow) I a
    obtain ⟨s2, e2, I2⟩ := acts_good hS as s1 I1
    exact ⟨s2, by show (act lw ow S a st >>= _) = _; rw [bind_ok e1]; exact e2, I2⟩

/-- C105: no program of constructions, copies, assignments, frees, … and loops over neighbors that read or assign, uses memory that was
released or not allocated, and afterwards exactly the arrays of the objects that exist are allocated. -/
theorem C105_programs (lw ow : Nat) (S : Stor) (hS : S ≠ .raw) (as : List Act) : ∃ st, acts lw ow S as State.init = .ok st ∧ NoLeak st := by
  obtain ⟨st, e, I⟩ := acts_good hS (lw := lw) (ow := ow) as State.init (Inv.init _ _)
  exact ⟨st, e, I.noLeak⟩

theorem acts_append {lw ow : Nat} {S : Stor} : ∀ (as bs : List Act) (st st' : State), acts lw ow S as st = .ok st' →
    acts lw ow S (as ++ bs) st = acts lw ow S bs st'
  | [], _, st, st', e => by cases e; rfl
  | a :: as, bs, st, st', e => by
    obtain ⟨s1, e1, e2⟩ := bind_eq_ok (show (act lw ow S a st >>= fun s => acts lw ow S as s) = .ok st' from e)
    show (act lw ow S a st >>= fun s => acts lw ow S (as ++ bs) s) = _
    rw [bind_ok e1]
    exact acts_append as bs s1 st' e2

theorem take_assigned {b : List Nat} {m s e : Nat} (f : Nat → Option Nat) (h1 : s ≤ e) (h2 : e ≤ (b.take m).length) :
    (Spec.assigned b s e f).take m = Spec.assigned (b.take m) s e f := by
  have h3 : e ≤ m := by simp at h2; omega
  have h4 : e ≤ b.length := by simp at h2; omega
  apply List.ext_getElem?
  intro i
  have hs : Spec.slice (b.take m) s e = Spec.slice b s e := by
    unfold Spec.slice
    rw [List.drop_take, List.take_take, Nat.min_eq_left (by omega)]
  have hl : (Spec.slice b s e).length = e - s := by unfold Spec.slice; simp; omega
  unfold Spec.assigned
  rw [hs, List.take_take, Nat.min_eq_left (by omega), List.drop_take, List.append_assoc, List.append_assoc, List.take_append, List.take_take,
    List.take_append]
  have hA : (List.take (min m s) b) = b.take s := by rw [Nat.min_eq_right (by omega)]
  have hB : (List.map (fun u => (f u).getD u) (Spec.slice b s e)).take (m - (b.take s).length) = List.map (fun u => (f u).getD u) (Spec.slice b s e) :=
    List.take_of_length_le (by simp [hl]; omega)
  rw [hA, hB]
  have : m - (b.take s).length - (List.map (fun u => (f u).getD u) (Spec.slice b s e)).length = m - e := by
    simp [hl]; omega
  rw [this]

/-- The arrays of a CSR. -/
theorem csr_arrays {h : Heap} {g : Obj} (k : Ok h g) {w : Bool} (hc : g.cls = .csr w) {ep off : List Nat} {ws : List (List Nat)}
    (hv : (value h g).arrs = ep :: off :: ws) :
    ∃ a b l n, g.slots = a :: b :: l ∧ ep = (contents h a).take g.m ∧ off = (contents h b).take n ∧
      (g.slots.zip (g.cls.lens g.dims g.m) = (a, g.m) :: (b, n) :: l.zip ((g.cls.lens g.dims g.m).drop 2)) ∧
      ws = (l.zip ((g.cls.lens g.dims g.m).drop 2)).map (fun t => (contents h t.1).take t.2) := by
  have hl := k.len
  obtain ⟨c, ss, d, m⟩ := g
  dsimp only at hc
  subst hc
  unfold Obj.lens at hl
  dsimp only at hl hv ⊢
  unfold value at hv
  dsimp only at hv
  obtain ⟨n, ls, hls⟩ : ∃ n ls, (Cls.csr w).lens d m = m :: n :: ls := by cases w <;> exact ⟨_, _, rfl⟩
  rw [hls] at hl hv ⊢
  match ss, hl with
  | a :: b :: l, _ =>
    simp only [List.zip_cons_cons, List.map_cons, List.cons.injEq] at hv
    exact ⟨a, b, l, n, rfl, hv.1.symm, hv.2.1.symm, rfl, hv.2.2.symm⟩

theorem rowAt_take {lw ow v s e m n : Nat} {ep off : List Nat} (h : Spec.RowAt lw ow (ep.take m) (off.take n) v s e) : Spec.RowAt lw ow ep off v s e := by
  have key : ∀ {i x : Nat}, (off.take n)[i]? = some x → off[i]? = some x := by
    intro i x hx
    rw [List.getElem?_take] at hx
    split at hx
    · exact hx
    · cases hx
  exact ⟨key h.start, key h.stop, h.le, Nat.le_trans h.room (by simp; omega), h.label, h.ordinal⟩

/-- C105: after every program, a loop `for (auto& u : g.neighbors(v)) u = f(u)` over a Graph replaces the elements of the row in the endpoints
of the graph, unless they are in a `vector`; its offsets and weights, and the objects that have no array in common with it, stay as they are. -/
theorem C105_effect (lw ow : Nat) (S : Stor) (hS : S ≠ .raw) (as : List Act) (st : State) (hr : acts lw ow S as State.init = .ok st) (i : Nat) (g : Obj)
    (w : Bool) (hi : st.at i = some g) (hc : g.cls = .csr w) (ep off : List Nat) (ws : List (List Nat))
    (hv : (value st.heap g).arrs = ep :: off :: ws) (v s e : Nat) (hrow : Spec.RowAt lw ow ep off v s e) (f : Nat → Option Nat) :
    ∃ st', acts lw ow S (as ++ [.loop i v f]) State.init = .ok st' ∧ (∀ j, st'.at j = st.at j) ∧
      (value st'.heap g).arrs = (if S = .vec then ep else Spec.assigned ep s e f) :: off :: ws ∧
      ∀ j o, st.at j = some o → (S = .vec ∨ ∀ p, Refers g p → ¬ Refers o p) → value st'.heap o = value st.heap o := by
  obtain ⟨st1, e1, I⟩ := acts_good hS (lw := lw) (ow := ow) as State.init (Inv.init _ _)
  rw [hr] at e1; cases e1
  obtain ⟨a, b, l, n, hss, hep, hoff, hzip, hws⟩ := csr_arrays (I.ok i g hi) hc hv
  have h0 : g.slots.getD 0 none = a := by rw [hss]; rfl
  have h1 : g.slots.getD 1 none = b := by rw [hss]; rfl
  have hrow' : Spec.RowAt lw ow (contents st.heap a) (contents st.heap b) v s e := by
    rw [hep, hoff] at hrow; exact rowAt_take hrow
  obtain ⟨h', e2, C, hcont⟩ := loop_effect I (S := S) (lw := lw) (ow := ow) (v := v) (s := s) (e := e) f hi (by rw [h0, h1]; exact hrow')
  rw [h0] at hcont
  have hfits : rowFits lw ow g v st.heap = true := by
    obtain ⟨q, d, hq, hqm⟩ : ∃ q d, b = some q ∧ st.heap.mem q = some (contents st.heap b, d) := by
      have h2 := hrow'.start
      cases b with
      | none => simp [contents] at h2
      | some q =>
        cases hqm : st.heap.mem q with
        | none => simp [contents, hqm] at h2
        | some bd => exact ⟨q, bd.2, rfl, by rw [contents_some (b := bd.1) (c := bd.2) hqm]; exact hqm⟩
    unfold rowFits
    rw [h0, h1, lengthOf_eq, show elem b v st.heap = .ok s by rw [hq]; exact elem_eq hqm hrow'.start,
      show elem b (v + 1) st.heap = .ok e by rw [hq]; exact elem_eq hqm hrow'.stop]
    exact decide_eq_true ⟨hrow'.le, hrow'.room, hrow'.label, hrow'.ordinal⟩
  refine ⟨⟨st.objs, h'⟩, ?_, fun _ => rfl, ?_, ?_⟩
  · rw [acts_append as _ _ _ hr]
    have : act lw ow S (.loop i v f) st = .ok ⟨st.objs, h'⟩ := by
      simp only [act, hi, hc, hfits, if_true]
      rw [bind_ok e2]
    show (act lw ow S (.loop i v f) st >>= fun s => acts lw ow S [] s) = _
    rw [bind_ok this]
    rfl
  · have hne : ∀ q ∈ b :: l, contents h' q = contents st.heap q := by
      intro q hq
      rw [hcont]
      split
      · next hx =>
        rw [hx.2] at hq ⊢
        cases a with
        | none =>
          have h2 := hrow'.room
          have h3 := hrow'.le
          simp only [contents_none, List.length_nil] at h2
          obtain rfl : e = 0 := by omega
          obtain rfl : s = 0 := by omega
          simp [contents_none, Spec.assigned, Spec.slice]
        | some p =>
          exfalso
          have := (I.ok i g hi).uniq p
          rw [hss] at this
          have h3 : 0 < cnt (b :: l) p := cnt_pos.mpr hq
          simp only [cnt, own_self] at this h3
          omega
      · rfl
    unfold value
    simp only [hzip, List.map_cons]
    rw [hne b (by simp), ← hoff, hws]
    congr 1
    · rw [hcont]
      by_cases hvec : S = .vec
      · rw [if_neg (by simp [hvec]), if_pos hvec, hep]
      · rw [if_pos ⟨hvec, rfl⟩, if_neg hvec, hep, take_assigned f hrow.le (by rw [← hep]; exact hrow.room)]
    · congr 1
      apply List.map_congr_left
      intro t ht
      rw [hne t.1 (List.mem_cons_of_mem _ (List.of_mem_zip (a := t.1) (b := t.2) ht).1)]
  · intro j o ho hap
    unfold value
    congr 1
    apply List.map_congr_left
    intro t ht
    congr 1
    rw [hcont]
    split
    · next hx =>
      rcases hap with hvec | hap
      · exact absurd hvec hx.1
      · cases ha : a with
        | none =>
          have h2 := hrow'.room
          have h3 := hrow'.le
          simp only [ha, contents_none, List.length_nil] at h2
          obtain rfl : e = 0 := by omega
          obtain rfl : s = 0 := by omega
          rw [hx.2, ha]
          simp [contents_none, Spec.assigned, Spec.slice]
        | some p =>
          exfalso
          have h2 : t.1 ∈ o.slots := (List.of_mem_zip (a := t.1) (b := t.2) ht).1
          rw [hx.2, ha] at h2
          exact hap p (by unfold Refers; rw [hss, ha]; exact List.mem_cons_self) h2
    · rfl

/-! ## Iterators that are kept -/

theorem take_at {S : Stor} {st st' : State} {i : Nat} {g : Obj} (hi : st.at i = some g) {a : Slot} {l : List Slot} (hss : g.slots = a :: l)
    (e : step S (.take i 0) st = .ok st') :
    ∃ s, st'.at st.objs.length = some ⟨.array, [s], [], (room g).getD 0 0⟩ ∧ dup S a st.heap = .ok (s, st'.heap) := by
  simp only [step, hi, hss, List.getElem?_cons_zero] at e
  obtain ⟨x, e1, e2⟩ := bind_eq_ok e
  cases e2
  refine ⟨x.1, ?_, e1⟩
  have : (st.add ⟨.array, [x.1], [], (room g).getD 0 0⟩ x.2).at st.objs.length =
    if st.objs.length = st.objs.length then some ⟨.array, [x.1], [], (room g).getD 0 0⟩ else st.at st.objs.length := getD_append _ _ _
  rw [this, if_pos rfl]

/-- C105, `shared_ptr` and `vector`: the iterators of a row (`auto r = g.neighbors(v)`, or `r.begin()`) may be kept: whatever is done afterwards —
the graph may be freed, assigned to or destroyed — they can be read until they are assigned to or destroyed themselves.  (The storage
member of the iterator is the variable that `take i 0` makes; `s` and `e` are the positions.)  With `shared_ptr`s they see the array of the
graph, with the elements that it then has; with `vector`s those that the graph had. -/
theorem C105_kept (ow : Nat) (S : Stor) (hS : S ≠ .raw) (ops ops' : List Op) (st st' : State) (i : Nat) (g : Obj) (w : Bool) (ep off : List Nat)
    (ws : List (List Nat)) (hr : run S ops State.init = .ok st) (hi : st.at i = some g) (hc : g.cls = .csr w)
    (hv : (value st.heap g).arrs = ep :: off :: ws) (hr' : run S (ops ++ .take i 0 :: ops') State.init = .ok st')
    (hk : ∀ op ∈ ops', ¬ op.Replaces st.objs.length) (s e : Nat) (hse : s ≤ e) (he : e ≤ ep.length) (how : e < 2 ^ ow) :
    ∃ q now h', st'.at st.objs.length = some ⟨.array, [q], [], ep.length⟩ ∧ (value st'.heap ⟨.array, [q], [], ep.length⟩).arrs = [now] ∧
      iterateOver ow S (fun u h => .ok (none, u, h)) ⟨s, e, q⟩ st'.heap = .ok (Spec.slice now s e, h') ∧ Spec.SameMemory st'.heap h' ∧
      (S = .shared → q = g.slots.getD 0 none) ∧ (S = .vec → (∀ op ∈ ops', op.target ≠ some st.objs.length) → now = ep) := by
  obtain ⟨s0, e0, I, _⟩ := run_good hS (U := S = .vec) id ops State.init (Inv.init _ _) (fun _ _ h => Or.inl h)
  rw [hr] at e0; cases e0
  obtain ⟨s1, e1, e2⟩ := run_append ops _ _ _ hr'
  rw [hr] at e1; cases e1
  obtain ⟨s2, e3, e4⟩ := bind_eq_ok (show (step S (.take i 0) st >>= fun s => run S ops' s) = .ok st' from e2)
  obtain ⟨a, b, l, n, hss, hep, hoff, hzip, hws⟩ := csr_arrays (I.ok i g hi) hc hv
  obtain ⟨q, hq, hd⟩ := take_at hi hss e3
  have hm : (room g).getD 0 0 = ep.length := by
    unfold room
    rw [hzip]
    simp only [List.map_cons, List.getD_cons_zero]
    cases a with
    | none => simp [hep, contents_none]
    | some p =>
      have := (I.ok i g hi).room (some p, g.m) (by unfold Obj.lens; rw [hzip]; simp) rfl
      dsimp only at this
      rw [hep]
      simp
      omega
  rw [hm] at hq
  have hkeep := run_keeps (S := S) (o := ⟨.array, [q], [], ep.length⟩) rfl ops' s2 st' hq hk e4
  obtain ⟨s3, e5, I', _⟩ := run_good hS (U := S = .vec) id (ops ++ .take i 0 :: ops') State.init (Inv.init _ _) (fun _ _ h => Or.inl h)
  rw [hr'] at e5; cases e5
  have hok := I'.ok _ _ hkeep
  have hval : (value st'.heap ⟨.array, [q], [], ep.length⟩).arrs = [(contents st'.heap q).take ep.length] := rfl
  have hshared : S = .shared → q = g.slots.getD 0 none := by
    rintro rfl
    rw [hss]
    exact dup_same (by simp) a st.heap q s2.heap hd
  have hvec : S = .vec → (∀ op ∈ ops', op.target ≠ some st.objs.length) → (contents st'.heap q).take ep.length = ep := by
    rintro rfl ht
    obtain ⟨s4, e6, I2, v2, _⟩ := run_good (S := .vec) (by simp) (U := True) (fun _ => trivial) (ops ++ [.take i 0]) State.init (Inv.init _ _)
      (fun _ _ _ => Or.inl rfl)
    have hs2 : run .vec (ops ++ [.take i 0]) State.init = .ok s2 := by
      have : ∀ (ops : List Op) (x : State), run .vec ops x = .ok st → run .vec (ops ++ [.take i 0]) x = .ok s2 := by
        intro ops
        induction ops with
        | nil =>
          intro x hx
          cases hx
          show (step .vec (.take i 0) _ >>= fun s => run .vec [] s) = _
          rw [bind_ok e3]; rfl
        | cons o os ih =>
          intro x hx
          obtain ⟨y, h1, h2⟩ := bind_eq_ok (show (step .vec o x >>= fun s => run .vec os s) = .ok st from hx)
          show (step .vec o x >>= fun s => run .vec (os ++ [.take i 0]) s) = _
          rw [bind_ok h1]
          exact ih y h2
      exact this ops _ hr
    rw [hs2] at e6; cases e6
    have h1 : contents s2.heap q = contents st.heap a := by
      cases a with
      | none =>
        have hd' : (Except.ok (none, st.heap) : HM (Slot × Heap)) = .ok (q, s2.heap) := hd
        have h1 := Except.ok.inj hd'
        rw [← (Prod.mk.inj h1).1, ← (Prod.mk.inj h1).2]
      | some p =>
        obtain ⟨c, hc'⟩ := I.cnt.isSome (refs_pos hi (p := p) (by rw [hss]; exact List.mem_cons_self))
        unfold dup at hd
        dsimp only at hd
        rw [bind_ok (block_eq hc')] at hd
        simp only [fresh] at hd
        have h1 := Except.ok.inj hd
        rw [contents_some hc', ← (Prod.mk.inj h1).1, ← (Prod.mk.inj h1).2]
        simp [contents]
    have h2 : value s2.heap ⟨.array, [q], [], ep.length⟩ = ⟨[ep], [], ep.length⟩ := by
      show Val.mk [(contents s2.heap q).take ep.length] [] ep.length = _
      congr 2
      rw [h1, hep]
      simp [List.take_eq_take_iff]
    have hothers : ∀ (ops' : List Op) (x y : State), Inv .vec True x → (∀ op ∈ ops', op.target ≠ some st.objs.length) →
        x.at st.objs.length = some ⟨.array, [q], [], ep.length⟩ → run .vec ops' x = .ok y → (∀ op ∈ ops', ¬ op.Replaces st.objs.length) →
        value y.heap ⟨.array, [q], [], ep.length⟩ = value x.heap ⟨.array, [q], [], ep.length⟩ := by
      intro ops'
      induction ops' with
      | nil => intro x y _ _ _ he _; cases he; rfl
      | cons o os ih =>
        intro x y J ht hat he hk
        obtain ⟨z, h1, h2⟩ := bind_eq_ok (show (step .vec o x >>= fun s => run .vec os s) = .ok y from he)
        obtain ⟨z', h3, J', _, hoth, _⟩ := good_step (S := .vec) (by simp) (U := True) (fun _ => trivial) J o (fun _ => Or.inl rfl)
        rw [h1] at h3; cases h3
        have hne : o.target ≠ some st.objs.length := ht o (by simp)
        have hav : o.Avoids x ⟨.array, [q], [], ep.length⟩ := by
          intro i' a' hop x' hx' p hp hp2
          have hu := J.uniq trivial p
          by_cases hii : i' = st.objs.length
          · subst hii; rw [hop] at hne; exact hne rfl
          · have hlt : i' < x.objs.length := getD_lt hx'
            rw [refs_split x.objs i' x' hx' p] at hu
            have h5 := refs_pos_other hlt hii hat hp2
            have h6 : 0 < cnt x'.slots p := cnt_pos.mpr hp
            omega
        rw [ih z y J' (fun op hop => ht op (by simp [hop])) ((hoth _ _ hat hne).1) h2 (fun op hop => hk op (by simp [hop]))]
        exact (hoth _ _ hat hne).2 hav
    have h3 := hothers ops' s2 st' I2 ht hq e4 hk
    rw [h2] at h3
    have := congrArg Val.arrs h3
    rw [hval] at this
    simpa using this
  have hslice : ∀ b : List Nat, Spec.slice (b.take ep.length) s e = Spec.slice b s e := by
    intro b
    unfold Spec.slice
    rw [List.drop_take, List.take_take, Nat.min_eq_left (by omega)]
  have main : ∃ h', iterateOver ow S (fun u h => .ok (none, u, h)) ⟨s, e, q⟩ st'.heap = .ok (Spec.slice (contents st'.heap q) s e, h') ∧
      Spec.SameMemory st'.heap h' := by
    cases hq' : q with
    | none =>
      have : e = 0 := by
        cases a with
        | none => rw [hep, contents_none] at he; simpa using he
        | some p =>
          exfalso
          subst hq'
          obtain ⟨c, hc'⟩ := I.cnt.isSome (refs_pos hi (p := p) (by rw [hss]; exact List.mem_cons_self))
          cases S with
          | raw => exact hS rfl
          | shared => rw [dup_shared hc'] at hd; cases hd
          | vec =>
            unfold dup at hd
            dsimp only at hd
            rw [bind_ok (block_eq hc')] at hd
            simp only [fresh] at hd
            cases hd
      subst this
      obtain rfl : s = 0 := by omega
      have hmem : member S none st'.heap = .ok (none, st'.heap) := by cases S <;> rfl
      have hdrop : drop S none st'.heap = .ok st'.heap := by cases S <;> rfl
      refine ⟨st'.heap, ?_, rfl⟩
      unfold iterateOver
      dsimp only
      rw [bind_ok hmem]
      dsimp only
      rw [bind_ok hmem]
      dsimp only
      obtain ⟨k, hk'⟩ := Nat.exists_eq_succ_of_ne_zero (Nat.pos_iff_ne_zero.mp (Nat.two_pow_pos ow))
      rw [hk', edgeLoop, if_pos rfl]
      show (drop S none st'.heap >>= _) = _
      rw [bind_ok hdrop, bind_ok hdrop]
      simp [Spec.slice]
    | some p =>
      have hroom : ep.length ≤ (contents st'.heap (some p)).length := by
        have := hok.room (q, ep.length) (by simp [Obj.lens, Cls.lens]) (by rw [hq']; rfl)
        rw [hq'] at this
        exact this
      obtain ⟨c, hm'⟩ := I'.cnt.isSome (refs_pos hkeep (p := p) (by rw [hq']; simp))
      have hb := contents_some hm'
      rw [hb] at hroom ⊢
      obtain ⟨h', f1, f2, _, _⟩ := iterateOver_ok (S := S) (ow := ow) (r := ⟨s, e, some p⟩) rfl (reading_body st'.heap _) I'.sane hm' hse
        (Nat.le_trans he hroom) how
      refine ⟨h', by rw [f1, List.map_id], ?_⟩
      rw [Spec.SameMemory, f2]
      dsimp only
      rw [upd_none _ hse, memAfter_same hm']
  obtain ⟨h', f1, f2⟩ := main
  exact ⟨q, _, h', hkeep, hval, by rw [hslice]; exact f1, f2, hshared, hvec⟩

/-- C105 fails for raw pointers: `free()` of the graph makes every iterator of a row with elements that was kept read released memory. -/
theorem C105_dangling_violated (ow : Nat) (h h' : Heap) (g g' : Obj) (w : Bool) (p s e : Nat) (hc : g.cls = .csr w) (hp : g.slots.getD 0 none = some p)
    (hf : freeObj .raw g h = .ok (g', h')) (hse : s < e) :
    iterateOver ow .raw (fun u h => .ok (none, u, h)) ⟨s, e, some p⟩ h' = .error .badAccess := by
  have hfree : ∀ (ss : List Slot) (x y : Heap), each_ (fun s h => freeMem .raw s h) ss x = .ok y → (some p ∈ ss ∨ x.mem p = none) → y.mem p = none := by
    intro ss
    induction ss with
    | nil =>
      intro x y hxy hor
      cases hxy
      rcases hor with h1 | h1
      · cases h1
      · exact h1
    | cons a as ih =>
      intro x y hxy hor
      obtain ⟨z, h1, h2⟩ := bind_eq_ok (show (freeMem .raw a x >>= fun h => each_ (fun s h => freeMem .raw s h) as h) = .ok y from hxy)
      apply ih z y h2
      cases a with
      | none => cases h1
      | some r =>
        simp only [freeMem] at h1
        split at h1
        · cases h1
        · next bc hbc =>
          cases h1
          by_cases hrp : p = r
          · right; simp [Heap.set, hrp]
          · rcases hor with h3 | h3
            · left
              rcases List.mem_cons.mp h3 with h4 | h4
              · exact absurd (Option.some.inj h4) hrp
              · exact h4
            · right; simp [Heap.set, hrp, h3]
  have hmem : h'.mem p = none := by
    unfold freeObj at hf
    have hd : g.cls.deep = false := by rw [hc]; rfl
    rw [hd] at hf
    dsimp only at hf
    obtain ⟨z, h1, h2⟩ := bind_eq_ok hf
    cases h2
    refine hfree g.slots h _ h1 (Or.inl ?_)
    rw [List.getD_eq_getElem?_getD] at hp
    cases hx : g.slots[0]? with
    | none => rw [hx] at hp; cases hp
    | some x => rw [hx] at hp; cases hp; exact List.mem_of_getElem? hx
  unfold iterateOver
  rw [bind_ok (member_raw _ _)]
  dsimp only
  rw [bind_ok (member_raw _ _)]
  dsimp only
  obtain ⟨k, hk⟩ := Nat.exists_eq_succ_of_ne_zero (Nat.pos_iff_ne_zero.mp (Nat.two_pow_pos ow))
  have : edgeLoop ow (fun u h => .ok (none, u, h)) (some p) (2 ^ ow) s e h' = (.error .badAccess : HM (List Nat × Heap)) := by
    rw [hk, edgeLoop, if_neg (by omega)]
    simp only [elem, Heap.block, hmem]
    rfl
  rw [this]
  rfl

/-! ## Concrete graphs -/

/-- A graph of three vertices with the rows [2, 1], [], [0], and a copy of it. -/
def exGraphOps : List Op := [.construct (.csr false) ⟨[[2, 1, 0], [0, 2, 2, 3]], [3, 3, 3], 3⟩, .copy 0 (fun _ => 7)]

def exHeap : Heap := ⟨2, fun a => if a = 0 then some ([2, 1, 0], 1) else if a = 1 then some ([0, 2, 2, 3], 1) else none⟩

def exGraph : Obj := ⟨.csr false, [some 0, some 1], [3, 3, 3], 3⟩

/-- The hypotheses of the theorems about one loop: rows 0 and 2. -/
example : Spec.Stored exHeap exGraph 0 [2, 1, 0] [0, 2, 2, 3] ∧ Spec.RowAt 32 64 [2, 1, 0] [0, 2, 2, 3] 0 0 2 ∧
    Spec.RowAt 32 64 [2, 1, 0] [0, 2, 2, 3] 2 2 3 ∧ Spec.Sane exHeap := by
  refine ⟨⟨rfl, rfl, by simp [exHeap], rfl, by simp [exGraph]⟩, ⟨rfl, rfl, by decide, by decide, by decide, by decide⟩,
    ⟨rfl, rfl, by decide, by decide, by decide, by decide⟩, ⟨fun a ha => ?_, fun a b c h => ?_⟩⟩
  · have ha : 2 ≤ a := ha
    show (if a = 0 then _ else if a = 1 then _ else _) = _
    rw [if_neg (by omega), if_neg (by omega)]
  · simp only [exHeap] at h
    split at h
    · cases h; omega
    · split at h
      · cases h; omega
      · cases h

/-- The neighbors of vertex 0, and of its neighbors. -/
example : ((forNeighbors 32 64 .vec (fun u h => .ok (none, u, h)) exGraph 0 exHeap).toOption.map Prod.fst) = some [2, 1] ∧
    ((twoHop 32 64 .shared exGraph 0 exHeap).toOption.map Prod.fst) = some [[(2, 0)], []] := by decide +kernel

/-- What object `i` contains after a program. -/
def afterActs (S : Stor) (as : List Act) (i : Nat) : Option (List (List Nat)) :=
  match acts 32 64 S as State.init with
  | .ok st => (st.at i).map (fun o => (value st.heap o).arrs)
  | .error _ => none

/-- Vertices renamed in the row of vertex 0 of the copy: with `shared_ptr`s the graph and the copy change, with `vector`s neither does. -/
example : afterActs .shared (exGraphOps.map .op ++ [.loop 1 0 (fun u => some (u + 10))]) 1 = some [[12, 11, 0], [0, 2, 2, 3]] ∧
    afterActs .shared (exGraphOps.map .op ++ [.loop 1 0 (fun u => some (u + 10))]) 0 = some [[12, 11, 0], [0, 2, 2, 3]] ∧
    afterActs .vec (exGraphOps.map .op ++ [.loop 1 0 (fun u => some (u + 10))]) 1 = some [[2, 1, 0], [0, 2, 2, 3]] := by decide +kernel

/-- The hypothesis of `C105_vector_violated`. -/
example : ∃ u ∈ Spec.slice [2, 1, 0] 0 2, ∃ x, (fun u => some (u + 10)) u = some x ∧ x ≠ u := ⟨2, by decide, 12, rfl, by decide⟩

/-- The hypotheses of `C105_kept`: the graph is destroyed while an iterator exists. -/
example : (∀ op ∈ [Op.destroy 0], ¬ op.Replaces 2) ∧ ∃ st, run .shared exGraphOps State.init = .ok st ∧ st.objs.length = 2 ∧
    (st.at 0).map Obj.cls = some (.csr false) ∧ (st.at 0).map (fun g => (value st.heap g).arrs) = some [[2, 1, 0], [0, 2, 2, 3]] := by
  refine ⟨fun op ho => ?_, _, rfl, rfl, rfl, rfl⟩
  simp only [List.mem_singleton] at ho
  subst ho
  rintro (h | ⟨k, j, h⟩)
  · cases h
  · cases h

/-- The hypotheses of `C105_dangling_violated`. -/
example : (freeObj .raw exGraph exHeap).toOption.isSome = true ∧ exGraph.slots.getD 0 none = some 0 ∧ exGraph.cls = .csr false := by decide +kernel

end Pigo.Alias
