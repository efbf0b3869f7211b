import Verif.Lemmas.AliasRun

/-!
# One operation of a history
-/

namespace Pigo.Alias

open Pigo.Life (HFault HM Val)

/-- The objects the operation is not called on stay, with their values if no elements are stored in their arrays. -/
def Others (op : Op) (st st' : State) : Prop :=
  ∀ j o, st.at j = some o → op.target ≠ some j → st'.at j = some o ∧ (op.Avoids st o → value st'.heap o = value st.heap o)

theorem others_refl (op : Op) (st : State) : Others op st st := fun _ _ h _ => ⟨h, fun _ => rfl⟩

theorem others_add {op : Op} {st : State} {o : Obj} {h : Heap} (k : Keeps (refs st.objs) st.heap h) : Others op st (st.add o h) := by
  intro j x hj _
  refine ⟨?_, fun _ => value_keeps k (fun p hp => refs_pos hj hp)⟩
  have : (st.add o h).at j = if j = st.objs.length then some o else st.at j := getD_append _ _ _
  rw [this, if_neg (Nat.ne_of_lt (getD_lt hj)), hj]

theorem others_set {op : Op} {st : State} {i : Nat} {o : Obj} (hi : st.at i = some o) (ht : op.target = some i) {o' : Option Obj} {h : Heap}
    (k : Keeps (refs (st.objs.set i none)) st.heap h) : Others op st (st.set i o' h) := by
  intro j x hj hne
  have hij : i ≠ j := fun e => hne (by rw [ht, e])
  refine ⟨?_, fun _ => value_keeps k (fun p hp => refs_pos_other (getD_lt hi) hij hj hp)⟩
  have : (st.set i o' h).at j = if i = j then o' else st.at j := getD_set _ _ _ _ (getD_lt hi)
  rw [this, if_neg hij, hj]

/-- What every operation gives: it runs, keeps the invariant, does what it does on plain data, and keeps families apart. -/
def Good (S : Stor) (U : Prop) (op : Op) (st : State) : Prop :=
  ∃ st', step S op st = .ok st' ∧ Inv S U st' ∧ (U → view st' = vstep op (view st)) ∧ Others op st st' ∧
    (S = .shared → ∀ t F, Fam t F st.objs → Fam (t + 1) (fstep t op F) st'.objs)

theorem construct_ok {h0 : Heap} {L0 : Nat → Nat} (H : Cnt h0 L0) (c : Cls) (v : Val) (hl : v.arrs.map List.length = c.lens v.dims v.m) :
    ∃ ss h1, each (fun b h => .ok (fresh b h)) v.arrs h0 = .ok (ss, h1) ∧ Cnt h1 (fun p => L0 p + cnt ss p) ∧ Keeps L0 h0 h1 ∧
      Ok h1 ⟨c, ss, v.dims, v.m⟩ ∧ value h1 ⟨c, ss, v.dims, v.m⟩ = v ∧ ∀ p, some p ∈ ss → L0 p = 0 := by
  obtain ⟨ss, h1, e1, c1, k1, l1, q1, f1⟩ := each_ok (f := fun b h => .ok (fresh b h)) (fun _ : List Nat => none)
    (fun b s b' => b' = b ∧ s.isSome) L0 h0 (U := False) (F := True) False.elim v.arrs
    (fun b _ L h _ _ H' _ => by
      obtain ⟨a1, a2, a3, p, a4, a5⟩ := fresh_ok (L := L) (H'.congr (fun p => by rw [own_none]; rfl)) b
      exact ⟨_, _, rfl, a1, a2, ⟨a3, by simp [a4]⟩, fun _ q hq => by have := a4.symm.trans hq; cases this; exact a5⟩)
    L0 h0 (fun _ => Nat.le_refl _) (Keeps.refl _ _) (H.congr (fun p => by rw [cnt_none]; rfl)) False.elim
  obtain ⟨f2, f3⟩ := f1 trivial
  have hll : ss.length = (c.lens v.dims v.m).length := by rw [l1, ← hl]; simp
  have qi : ∀ i (ha : i < ss.length) (hb : i < (c.lens v.dims v.m).length), ∃ hi : i < v.arrs.length,
      contents h1 ss[i] = v.arrs[i] ∧ ss[i].isSome ∧ (c.lens v.dims v.m)[i] = v.arrs[i].length := by
    intro i ha hb
    have hi : i < v.arrs.length := by omega
    have := zip_getElem (P := fun (t : List Nat × Slot) => contents h1 t.2 = t.1 ∧ t.2.isSome) q1 i hi ha
    refine ⟨hi, this.1, this.2, ?_⟩
    simp only [← hl, List.getElem_map]
  have ho : Ok h1 ⟨c, ss, v.dims, v.m⟩ := by
    refine ⟨hll, ?_, ?_, f3⟩
    · apply zip_of_getElem (P := fun t => t.1.isSome → t.2 ≤ (contents h1 t.1).length)
      intro i ha hb _
      obtain ⟨hi, a1, a2, a3⟩ := qi i ha hb
      simp only [a1]
      exact Nat.le_of_eq a3
    · intro _
      apply zip_of_getElem (P := fun t => t.1 = none → t.2 = 0)
      intro i ha hb hn
      obtain ⟨hi, a1, a2, a3⟩ := qi i ha hb
      simp only at hn
      rw [hn] at a2; cases a2
  have hv : value h1 ⟨c, ss, v.dims, v.m⟩ = v := by
    unfold value
    simp only
    have : (ss.zip (c.lens v.dims v.m)).map (fun t => (contents h1 t.1).take t.2) = v.arrs := by
      apply List.ext_getElem
      · simp; omega
      · intro i hi hi'
        simp only [List.length_map, List.length_zip] at hi
        obtain ⟨_, a1, a2, a3⟩ := qi i (by omega) (by omega)
        simp only [List.getElem_map, List.getElem_zip, a1, a3, List.take_length]
    rw [this]
  exact ⟨ss, h1, e1, c1, k1, ho, hv, f2⟩

theorem good_construct {S : Stor} {U : Prop} {st : State} (I : Inv S U st) (c : Cls) (v : Val) (hd : U → S = .vec ∨ c.deep = true) :
    Good S U (.construct c v) st := by
  by_cases hl : v.arrs.map List.length = c.lens v.dims v.m
  · obtain ⟨ss, h1, e1, c1, k1, ho, hv, f2⟩ := construct_ok I.cnt c v hl
    refine ⟨st.add ⟨c, ss, v.dims, v.m⟩ h1, ?_, I.add c1 k1 ho (fun _ => f2) hd, ?_, others_add k1, ?_⟩
    · simp only [step, if_pos hl]
      rw [bind_ok e1]
    · intro _
      simp only [vstep, if_pos hl]
      rw [view_add k1, hv]
    · intro _ t F hF
      simp only [fstep, if_pos hl]
      refine hF.add (o' := ⟨c, ss, v.dims, v.m⟩) (Nat.lt_succ_self t) (fun j o _ _ hj _ _ p hp hp' => ?_)
      have := f2 p hp
      have := refs_pos hj hp'
      omega
  · exact ⟨st, by simp only [step, if_neg hl], I, fun _ => by simp only [vstep, if_neg hl], others_refl _ _, fun _ t F hF => by
      simp only [fstep, if_neg hl]; exact hF.mono⟩

theorem good_default {S : Stor} {U : Prop} {st : State} (I : Inv S U st) (c : Cls) (hd : U → S = .vec ∨ c.deep = true) :
    Good S U (.default c) st := by
  by_cases hc : c.hasDefault
  · have hmem : ∀ p, some p ∉ (c.lens c.zeros 0).map (fun _ => (none : Slot)) := by intro p hp; simp at hp
    have ho : Ok st.heap ⟨c, (c.lens c.zeros 0).map (fun _ => none), c.zeros, 0⟩ := by
      refine ⟨by simp [Obj.lens], ?_, ?_, fun p => by rw [cnt_none]; omega⟩
      · intro t ht hs
        have := mem_slots (o := ⟨c, (c.lens c.zeros 0).map (fun _ => none), c.zeros, 0⟩) ht
        simp only [List.mem_map] at this
        obtain ⟨_, _, e⟩ := this
        rw [← e] at hs; cases hs
      · intro hdp t ht _
        exact lens_zero hdp _ _ (List.of_mem_zip (a := t.1) (b := t.2) ht).2
    refine ⟨st.add ⟨c, (c.lens c.zeros 0).map (fun _ => none), c.zeros, 0⟩ st.heap, by simp only [step, if_pos hc], ?_, ?_, others_add (Keeps.refl _ _), ?_⟩
    · exact I.add (I.cnt.congr (fun p => by rw [cnt_none]; rfl)) (Keeps.refl _ _) ho (fun _ p hp => absurd hp (hmem p)) hd
    · intro _
      simp only [vstep, if_pos hc]
      rw [view_add (Keeps.refl _ _)]
      have : value st.heap ⟨c, (c.lens c.zeros 0).map (fun _ => none), c.zeros, 0⟩ = emptyVal c c.zeros := by
        unfold value emptyVal
        simp only
        congr 1
        apply List.ext_getElem
        · simp
        · intro i hi hi'
          simp [contents_none]
      rw [this]
    · intro _ t F hF
      simp only [fstep, if_pos hc]
      exact hF.add (o' := ⟨c, (c.lens c.zeros 0).map (fun _ => none), c.zeros, 0⟩) (Nat.lt_succ_self t) (fun j o _ _ _ _ _ p hp => absurd hp (hmem p))
  · exact ⟨st, by simp only [step, if_neg hc], I, fun _ => by simp only [vstep, if_neg hc], others_refl _ _, fun _ t F hF => by
      simp only [fstep, if_neg hc]; exact hF.mono⟩

theorem good_skip {S : Stor} {U : Prop} {st : State} (I : Inv S U st) {op : Op} (h1 : step S op st = .ok st) (h2 : U → vstep op (view st) = view st)
    (h3 : S = .shared → ∀ t F, Fam t F st.objs → fstep t op F = F) : Good S U op st :=
  ⟨st, h1, I, fun u => (h2 u).symm, others_refl _ _, fun e t F hF => by rw [h3 e t F hF]; exact hF.mono⟩

theorem good_copy {S : Stor} (hS : S ≠ .raw) {U : Prop} (hv : S = .vec → U) {st : State} (I : Inv S U st) (j : Nat) (junk : Nat → Nat) :
    Good S U (.copy j junk) st := by
  cases hj : st.at j with
  | none =>
    refine good_skip I (by simp only [step, hj]) (fun _ => ?_) (fun _ t F hF => ?_)
    · simp only [vstep, view_getD, hj, Option.map_none]
    · simp only [fstep, hF.get_none hj]
  | some other =>
    have hk := I.ok j other hj
    have hs : ∀ p, some p ∈ other.slots → 0 < refs st.objs p := fun p hp => refs_pos hj hp
    have hdeep : U → S = .vec ∨ other.cls.deep = true := fun u => (I.deep u).imp id (fun g => g j other hj)
    cases hd : other.cls.deep with
    | true =>
      obtain ⟨o', h', e, c1, k1, hc, ho, hval, hf⟩ := deepCopy_ok hS (base := refs st.objs) (old := other.slots.map (fun _ => none)) junk hd
        (I.cnt.congr (fun p => by rw [cnt_none]; rfl)) (fun e p => by have := I.uniq (hv e) p; simp only [cnt_none]; exact this) hk hs (by simp [hk.len])
      refine ⟨st.add o' h', ?_, I.add c1 k1 ho (fun _ => hf) (fun u => by rw [hc]; exact hdeep u), ?_, others_add k1, ?_⟩
      · simp only [step, hj, hd, if_true]
        rw [bind_ok e]
      · intro _
        simp only [vstep, view_getD, hj, Option.map_some]
        rw [view_add k1, hc, hval]
      · intro _ t F hF
        obtain ⟨f, hff⟩ := hF.get hj
        simp only [fstep, hff, hd, if_true]
        have := hF.add (o' := o') (Nat.lt_succ_self t) (fun j' o _ _ hj' _ _ p hp hp' => by
          have := hf p hp
          have := refs_pos hj' hp'
          omega)
        rw [hc] at this
        exact this
    | false =>
      obtain ⟨o', h', e, c1, k1, hc, ho, hval, hsh, hf⟩ := shallowNew_ok hS I.cnt hk hs
      refine ⟨st.add o' h', ?_, I.add c1 k1 ho ?_ (fun u => by rw [hc]; exact hdeep u), ?_, others_add k1, ?_⟩
      · simp only [step, hj, hd, Bool.false_eq_true, if_false]
        rw [bind_ok e]
      · intro u
        rcases hdeep u with e | e
        · exact hf e
        · rw [hd] at e; cases e
      · intro _
        simp only [vstep, view_getD, hj, Option.map_some]
        rw [view_add k1, hc, hval]
      · intro hshd t F hF
        obtain ⟨f, hff⟩ := hF.get hj
        simp only [fstep, hff, hd]
        have := hF.add (o' := o') (Nat.lt_succ_of_lt (hF.lt j _ f hff)) (fun j' o c g hj' hcj hne p hp => by
          rw [hsh hshd] at hp
          exact hF.sep j j' other o _ f c g hj hj' hff hcj (Ne.symm hne) p hp)
        rw [hc] at this
        exact this

theorem good_assign {S : Stor} (hS : S ≠ .raw) {U : Prop} (hv : S = .vec → U) {st : State} (I : Inv S U st) (i j : Nat) (junk : Nat → Nat) :
    Good S U (.assign i j junk) st := by
  cases hi : st.at i with
  | none =>
    refine good_skip I (by simp only [step, hi]) (fun _ => ?_) (fun _ t F hF => ?_)
    · simp only [vstep, view_getD, hi, Option.map_none]
    · simp only [fstep, hF.get_none hi]
  | some o =>
    cases hj : st.at j with
    | none =>
      refine good_skip I (by simp only [step, hi, hj]) (fun _ => ?_) (fun _ t F hF => ?_)
      · simp only [vstep, view_getD, hj, Option.map_none]
        split
        · next h => cases h
        · rfl
      · obtain ⟨f, hf⟩ := hF.get hi
        simp only [fstep, hF.get_none hj, hf]
    | some other =>
      by_cases hskip : i = j ∨ o.cls ≠ other.cls
      · refine good_skip I (by simp only [step, hi, hj, if_pos hskip]) (fun _ => ?_) (fun _ t F hF => ?_)
        · simp only [vstep, view_getD, hi, hj, Option.map_some]
          rcases hskip with e | e
          · subst e
            rw [hi] at hj; cases hj
            rw [if_pos rfl]
            exact set_getD _ _ _ (by rw [view_getD, hi]; rfl)
          · rw [if_neg e]
        · obtain ⟨f, hf⟩ := hF.get hi
          obtain ⟨g, hg⟩ := hF.get hj
          simp only [fstep, hf, hg, if_pos hskip]
      · have hij : i ≠ j := fun e => hskip (Or.inl e)
        have hcls : o.cls = other.cls := by by_contra hc; exact hskip (Or.inr hc)
        have hlt := getD_lt hi
        have hk := I.ok j other hj
        have hko := I.ok i o hi
        have hs : ∀ p, some p ∈ other.slots → 0 < refs (st.objs.set i none) p := fun p hp => refs_pos_other hlt hij hj hp
        have hl : o.slots.length = other.lens.length := by
          rw [hko.len]; simp only [Obj.lens]; rw [lens_length, hcls, ← lens_length other.cls other.dims other.m]
        have hview : ∀ (o' : Obj) (h' : Heap), Keeps (refs (st.objs.set i none)) st.heap h' → o'.cls = other.cls → value h' o' = value st.heap other →
            view (st.set i (some o') h') = vstep (.assign i j junk) (view st) := by
          intro o' h' k1 hc hval
          simp only [vstep, view_getD, hi, hj, Option.map_some, if_pos hcls]
          rw [view_set hi k1, Option.map_some, hc, hval, hcls]
        cases hd : o.cls.deep with
        | true =>
          have hfree : ∃ o1, freeObj S o st.heap = .ok (o1, st.heap) ∧ o1.slots = o.slots := by
            by_cases hm : o.m > 0
            · refine ⟨{ o with dims := o.cls.freed o.dims, m := 0 }, ?_, rfl⟩
              simp only [freeObj, hd, if_pos hm]
              rw [bind_ok (each_free hS _ _)]
            · exact ⟨o, by simp only [freeObj, hd, if_neg hm], rfl⟩
          obtain ⟨o1, e0, hsl⟩ := hfree
          obtain ⟨o', h', e, c1, k1, hc, ho, hval, hf⟩ := deepCopy_ok hS (base := refs (st.objs.set i none)) (old := o.slots) junk (hcls ▸ hd)
            (I.base hi) (fun e => I.uniqBase (hv e) hi) hk hs hl
          refine ⟨st.set i (some o') h', ?_, I.set hi c1 k1 (fun x hx => by cases hx; exact ⟨ho, by rw [hc, hcls]⟩) ?_, ?_, others_set hi rfl k1, ?_⟩
          · simp only [step, hi, hj, if_neg hskip, hd, if_true]
            rw [bind_ok e0]
            show (deepCopy S junk o1.slots other st.heap >>= _) = _
            rw [hsl, bind_ok e]
          · intro u
            exact uniq_of_fresh (I.uniqBase u hi).left hf ho.uniq
          · intro _
            exact hview o' h' k1 hc hval
          · intro _ t F hF
            obtain ⟨f, hff⟩ := hF.get hi
            obtain ⟨g, hgg⟩ := hF.get hj
            simp only [fstep, hff, hgg, if_neg hskip, hd, if_true]
            have := hF.setAt hlt (o' := o') (Nat.lt_succ_self t) (fun j' x _ _ hne hj' _ _ p hp hp' => by
              have := hf p hp
              have := refs_pos_other hlt hne hj' hp'
              omega)
            rw [hc, ← hcls] at this
            exact this
        | false =>
          obtain ⟨o', h', e, c1, k1, hc, ho, hval, hsh, hf⟩ := shallowAssign_ok hS (base := refs (st.objs.set i none)) (old := o.slots) (I.base hi) hk hs
            (by rw [hl, hk.len])
          refine ⟨st.set i (some o') h', ?_, I.set hi c1 k1 (fun x hx => by cases hx; exact ⟨ho, by rw [hc, hcls]⟩) ?_, ?_, others_set hi rfl k1, ?_⟩
          · simp only [step, hi, hj, if_neg hskip, hd]
            exact bind_ok e _
          · intro u
            refine uniq_of_fresh (I.uniqBase u hi).left ?_ ho.uniq
            rcases I.deep u with e | e
            · exact hf e
            · rw [e i o hi] at hd; cases hd
          · intro _
            exact hview o' h' k1 hc hval
          · intro hshd t F hF
            obtain ⟨f, hff⟩ := hF.get hi
            obtain ⟨g, hgg⟩ := hF.get hj
            simp only [fstep, hff, hgg, if_neg hskip, hd]
            have := hF.setAt hlt (o' := o') (Nat.lt_succ_of_lt (hF.lt j _ g hgg)) (fun j' x c g' hne hj' hcj hneg p hp => by
              rw [hsh hshd] at hp
              exact hF.sep j j' other x _ g c g' hj hj' hgg hcj (Ne.symm hneg) p hp)
            rw [hc, ← hcls] at this
            exact this

theorem mem_swap {ss : List Slot} {p : Nat} : some p ∈ swap01 ss ↔ some p ∈ ss := by
  rw [← cnt_pos, ← cnt_pos, cnt_swap]

theorem swap_zip {α : Type} (ss : List α) (w : Bool) (d : List Nat) (m : Nat) (h : ss.length = ((Cls.coo w).lens d m).length) :
    (swap01 ss).zip ((Cls.coo w).lens d m) = swap01 (ss.zip ((Cls.coo w).lens d m)) := by
  cases w <;> simp only [Cls.lens, Bool.false_eq_true, if_false, if_true, List.length_cons, List.length_nil] at h ⊢
  · match ss, h with
    | [a, b], _ => rfl
  · match ss, h with
    | [a, b, c], _ => rfl

theorem swap_map {α β : Type} (f : α → β) (l : List α) : (swap01 l).map f = swap01 (l.map f) := by
  match l with
  | [] => rfl
  | [_] => rfl
  | _ :: _ :: _ => rfl

theorem swap_mem {α : Type} {l : List α} {a : α} : a ∈ swap01 l ↔ a ∈ l := by
  match l with
  | [] => rfl
  | [_] => rfl
  | x :: y :: l => simp only [swap01, List.mem_cons]; constructor <;> rintro (h | h | h) <;> simp [h]

theorem swap_length {α : Type} (l : List α) : (swap01 l).length = l.length := by
  match l with
  | [] => rfl
  | [_] => rfl
  | _ :: _ :: _ => rfl

theorem good_transpose {S : Stor} {U : Prop} {st : State} (I : Inv S U st) (i : Nat) : Good S U (.transpose i) st := by
  cases hi : st.at i with
  | none =>
    refine good_skip I (by simp only [step, hi]) (fun _ => ?_) (fun _ t F hF => rfl)
    simp only [vstep, view_getD, hi, Option.map_none]
  | some o =>
    have hlt := getD_lt hi
    have hko := I.ok i o hi
    cases hc : o.cls with
    | coo w =>
      have hz : (swap01 o.slots).zip o.lens = swap01 (o.slots.zip o.lens) := by
        have hl := hko.len
        simp only [Obj.lens, hc] at hl ⊢
        exact swap_zip _ _ _ _ hl
      have hz' : ∀ t, t ∈ (swap01 o.slots).zip o.lens ↔ t ∈ o.slots.zip o.lens := fun t => by rw [hz, swap_mem]
      have ho : Ok st.heap { o with slots := swap01 o.slots } :=
        ⟨by rw [swap_length]; exact hko.len, fun t ht => hko.room t ((hz' t).mp ht), fun hd t ht => hko.null hd t ((hz' t).mp ht),
          fun p => by rw [cnt_swap]; exact hko.uniq p⟩
      refine ⟨st.set i (some { o with slots := swap01 o.slots }) st.heap, by simp only [step, hi, hc], ?_, ?_, others_set hi rfl (Keeps.refl _ _), ?_⟩
      · refine I.set hi ((I.base hi).congr (fun p => by simp only [slotsOf, cnt_swap])) (Keeps.refl _ _) (fun x hx => by cases hx; exact ⟨ho, rfl⟩) ?_
        intro u p
        have := I.uniqBase u hi p
        simp only [slotsOf, cnt_swap]
        exact this
      · intro _
        simp only [vstep, view_getD, hi, Option.map_some, hc]
        rw [view_set hi (Keeps.refl _ _), Option.map_some]
        have : value st.heap { o with slots := swap01 o.slots } = { value st.heap o with arrs := swap01 (value st.heap o).arrs } := by
          unfold value
          simp only
          rw [← swap_map]
          simp only [Obj.lens] at hz
          rw [← hz]
        rw [← hc]
        rw [this]
      · intro _ t F hF
        exact hF.reslot hi rfl (fun p hp => mem_swap.mp hp)
    | tensor w =>
      refine good_skip I (by simp only [step, hi, hc]) (fun _ => ?_) (fun _ t F hF => rfl)
      simp only [vstep, view_getD, hi, Option.map_some, hc]
    | csr w =>
      refine good_skip I (by simp only [step, hi, hc]) (fun _ => ?_) (fun _ t F hF => rfl)
      simp only [vstep, view_getD, hi, Option.map_some, hc]
    | pair w =>
      refine good_skip I (by simp only [step, hi, hc]) (fun _ => ?_) (fun _ t F hF => rfl)
      simp only [vstep, view_getD, hi, Option.map_some, hc]
    | array =>
      refine good_skip I (by simp only [step, hi, hc]) (fun _ => ?_) (fun _ t F hF => rfl)
      simp only [vstep, view_getD, hi, Option.map_some, hc]

theorem set_self {st : State} {i : Nat} {o : Obj} (hi : st.at i = some o) : st.set i (some o) st.heap = st := by
  unfold State.set
  rw [set_getD st.objs i (some o) hi]

theorem good_free {S : Stor} (hS : S ≠ .raw) {U : Prop} {st : State} (I : Inv S U st) (i : Nat) : Good S U (.free i) st := by
  cases hi : st.at i with
  | none =>
    refine good_skip I (by simp only [step, hi]) (fun _ => ?_) (fun _ t F hF => rfl)
    simp only [vstep, view_getD, hi, Option.map_none]
  | some o =>
    have hko := I.ok i o hi
    by_cases hdm : o.cls.deep = true ∧ 0 < o.m
    · obtain ⟨hd, hm⟩ := hdm
      have hll : o.slots.length = (o.cls.lens (o.cls.freed o.dims) 0).length := by
        rw [hko.len]; simp only [Obj.lens]; rw [lens_length, ← lens_length o.cls (o.cls.freed o.dims) 0]
      have ho : Ok st.heap { o with dims := o.cls.freed o.dims, m := 0 } := by
        refine ⟨hll, ?_, ?_, hko.uniq⟩
        · intro t ht _
          rw [lens_zero hd _ _ (List.of_mem_zip (a := t.1) (b := t.2) ht).2]; omega
        · intro _ t ht _
          exact lens_zero hd _ _ (List.of_mem_zip (a := t.1) (b := t.2) ht).2
      refine ⟨st.set i (some { o with dims := o.cls.freed o.dims, m := 0 }) st.heap, ?_, ?_, ?_, others_set hi rfl (Keeps.refl _ _), ?_⟩
      · simp only [step, hi, freeObj, hd, if_pos (show o.m > 0 from hm)]
        rw [bind_ok (a := ({ o with dims := o.cls.freed o.dims, m := 0 }, st.heap)) (by rw [bind_ok (each_free hS _ _)])]
      · have h1 := I.base hi
        exact I.set hi h1 (Keeps.refl _ _) (fun x hx => by cases hx; exact ⟨ho, rfl⟩) (fun u => by have h2 := I.uniqBase u hi; exact h2)
      · intro _
        have hm' : o.cls.deep = true ∧ 0 < (value st.heap o).m := ⟨hd, hm⟩
        simp only [vstep, view_getD, hi, Option.map_some, if_pos hm']
        rw [view_set hi (Keeps.refl _ _), Option.map_some]
        have : value st.heap { o with dims := o.cls.freed o.dims, m := 0 } = emptyVal o.cls (o.cls.freed o.dims) := by
          unfold value emptyVal
          simp only
          congr 1
          apply List.ext_getElem
          · simp; omega
          · intro k hk hk'
            simp only [List.length_map, List.length_zip] at hk hk'
            simp only [List.getElem_map, List.getElem_zip]
            rw [lens_zero hd _ _ (List.getElem_mem _), List.take_zero]
        rw [this]
        rfl
      · intro _ t F hF
        exact hF.reslot hi rfl (fun p hp => hp)
    · have hstep : step S (.free i) st = .ok st := by
        simp only [step, hi]
        rw [bind_ok (a := (o, st.heap)) (by
          cases hd : o.cls.deep with
          | true =>
            have : ¬ o.m > 0 := fun hm => hdm ⟨hd, hm⟩
            simp only [freeObj, hd, if_neg this]
          | false => simp only [freeObj, hd]; rw [bind_ok (each_free hS _ _)])]
        simp only [set_self hi]
      refine good_skip I hstep (fun _ => ?_) (fun _ t F hF => rfl)
      simp only [vstep, view_getD, hi, Option.map_some]
      exact if_neg hdm

theorem good_destroy {S : Stor} (hS : S ≠ .raw) {U : Prop} {st : State} (I : Inv S U st) (i : Nat) : Good S U (.destroy i) st := by
  cases hi : st.at i with
  | none =>
    refine good_skip I (by simp only [step, hi]) (fun _ => ?_) (fun _ t F hF => ?_)
    · exact set_getD _ _ _ (by rw [view_getD, hi]; rfl)
    · exact set_getD _ _ _ (hF.get_none hi)
  | some o =>
    obtain ⟨h', e, c1, k1⟩ := each_drop hS o.slots (refs (st.objs.set i none)) st.heap (I.base hi)
    refine ⟨st.set i none h', ?_, I.set hi (c1.congr (fun p => by simp [slotsOf, cnt])) k1 (fun x hx => by cases hx) ?_, ?_, others_set hi rfl k1, ?_⟩
    · simp only [step, hi]
      rw [bind_ok e]
    · intro u p
      have := (I.uniqBase u hi).left p
      simp only [slotsOf, cnt]; exact this
    · intro _
      rw [view_set hi k1]; rfl
    · intro _ t F hF
      exact hF.kill (getD_lt hi)

theorem good_take {S : Stor} (hS : S ≠ .raw) {U : Prop} {st : State} (I : Inv S U st) (i k : Nat) (hd : U → S = .vec) : Good S U (.take i k) st := by
  cases hi : st.at i with
  | none =>
    refine good_skip I (by simp only [step, hi]) (fun _ => ?_) (fun _ t F hF => ?_)
    · simp only [vstep, view_getD, hi, Option.map_none]
    · simp only [fstep, hF.get_none hi]
  | some o =>
    have hko := I.ok i o hi
    have hlen := hko.len
    have hrfl : o.lens.length = (o.cls.lens o.dims o.m).length := rfl
    cases hk : o.slots[k]? with
    | none =>
      have hge : o.slots.length ≤ k := List.getElem?_eq_none_iff.mp hk
      refine good_skip I (by simp only [step, hi, hk]) (fun _ => ?_) (fun _ t F hF => ?_)
      · simp only [vstep, view_getD, hi, Option.map_some]
        rw [List.getElem?_eq_none (by simp [value]; omega)]
      · obtain ⟨f, hf⟩ := hF.get hi
        simp only [fstep, hf]
        rw [if_neg]
        rw [← lens_length o.cls o.dims o.m]
        simp only [Obj.lens] at hlen
        omega
    | some s =>
      obtain ⟨hlt, hsk⟩ := List.getElem?_eq_some_iff.mp hk
      have hsm : s ∈ o.slots := hsk ▸ List.getElem_mem _
      obtain ⟨s', h', e, c1, k1, hcont, hnone, hsh, hf⟩ := dup_ok hS (s := s) I.cnt (fun p hp => refs_pos hi (hp ▸ hsm))
      have hlk : k < o.lens.length := by omega
      have hroom : (room o).getD k 0 = if s.isNone then 0 else o.lens[k] := by
        rw [List.getD_eq_getElem?_getD, List.getElem?_eq_getElem (by simp [room]; omega)]
        simp only [room, List.getElem_map, List.getElem_zip, hsk, Option.getD_some]
      have hin : s.isSome → o.lens[k] ≤ (contents st.heap s).length := fun hs => by
        have := zip_getElem (P := fun t => t.1.isSome → t.2 ≤ (contents st.heap t.1).length) hko.room k hlt hlk
        simp only [hsk] at this
        exact this hs
      have hle : (room o).getD k 0 ≤ (contents st.heap s).length := by
        rw [hroom]
        cases hs : s with
        | none => simp
        | some p => subst hs; simpa using hin rfl
      have ho : Ok h' ⟨.array, [s'], [], (room o).getD k 0⟩ := by
        refine ⟨rfl, ?_, fun hd => by simp [Cls.deep] at hd, fun p => by simp [cnt, own_le]⟩
        intro t ht _
        simp only [Obj.lens, Cls.lens, List.zip_cons_cons, List.zip_nil_right, List.mem_singleton] at ht
        subst ht
        simp only [hcont]
        exact hle
      refine ⟨st.add ⟨.array, [s'], [], (room o).getD k 0⟩ h', ?_, ?_, ?_, others_add k1, ?_⟩
      · simp only [step, hi, hk]
        rw [bind_ok e]
      · refine I.add (c1.congr (fun p => by simp [cnt])) k1 ho ?_ (fun u => Or.inl (hd u))
        intro u p hp
        simp only [List.mem_singleton] at hp
        exact hf (hd u) p hp.symm
      · intro _
        simp only [vstep, view_getD, hi, Option.map_some]
        rw [view_add k1]
        have hb : (value st.heap o).arrs[k]? = some ((contents st.heap s).take ((room o).getD k 0)) := by
          rw [List.getElem?_eq_getElem (by simp [value]; omega)]
          simp only [value, List.getElem_map, List.getElem_zip, hsk, hroom]
          cases hs : s with
          | none => simp [contents_none]
          | some p => simp
        rw [hb]
        simp only [value, Cls.lens, List.zip_cons_cons, List.zip_nil_right, List.map_cons, List.map_nil, hcont, List.length_take]
        rw [Nat.min_eq_left hle]
      · intro hshd t F hF
        obtain ⟨f, hff⟩ := hF.get hi
        simp only [fstep, hff]
        rw [if_pos (by rw [← lens_length o.cls o.dims o.m]; exact hlk)]
        refine hF.add (o' := ⟨.array, [s'], [], (room o).getD k 0⟩) (Nat.lt_succ_of_lt (hF.lt i _ f hff)) (fun j x c g hj hcj hne p hp => ?_)
        simp only [List.mem_singleton] at hp
        rw [hsh hshd] at hp
        exact hF.sep i j o x _ f c g hi hj hff hcj (Ne.symm hne) p (hp ▸ hsm)

/-- Storing elements in all arrays of an object. -/
theorem put_all {h : Heap} {M : Nat → Nat} {o : Obj} (H : Cnt h M) (hko : Ok h o) (hs : ∀ p, some p ∈ o.slots → 0 < M p) {a : List (List Nat)}
    (ha : a.map List.length = room o) :
    ∃ h', each_ (fun (t : Slot × List Nat) h => put t.1 t.2 h) (o.slots.zip a) h = .ok h' ∧ Cnt h' M ∧
      (∀ q, some q ∉ o.slots → cont h' q = cont h q) ∧ (∀ p, (contents h' (some p)).length = (contents h (some p)).length) ∧
      value h' o = { value h o with arrs := a } := by
  have hlen := hko.len
  have hrfl : o.lens.length = (o.cls.lens o.dims o.m).length := rfl
  have hla : a.length = o.slots.length := by
    have := congrArg List.length ha
    simp only [List.length_map, room, List.length_zip] at this
    omega
  have hroom : ∀ t ∈ o.slots.zip a, t.2.length ≤ (contents h t.1).length ∧ (t.1 = none → t.2 = []) := by
    apply zip_of_getElem (P := fun t => t.2.length ≤ (contents h t.1).length ∧ (t.1 = none → t.2 = []))
    intro k hk hk'
    have hlk : k < o.lens.length := by omega
    have e1 : a[k].length = if o.slots[k].isNone then 0 else o.lens[k] := by
      have : (a.map List.length)[k]'(by simpa using hk') = (room o)[k]'(by simp [room]; omega) := by simp only [ha]
      simpa [room] using this
    have hin := zip_getElem (P := fun t => t.1.isSome → t.2 ≤ (contents h t.1).length) hko.room k hk hlk
    simp only at hin ⊢
    cases hs : o.slots[k] with
    | none => rw [hs] at e1; simp at e1; simp [e1]
    | some p =>
      rw [hs] at e1 hin
      simp only [Option.isNone_some, Bool.false_eq_true, if_false] at e1
      rw [e1]
      exact ⟨hin rfl, fun h => by cases h⟩
  have hmp : (o.slots.zip a).map Prod.fst = o.slots := List.map_fst_zip (by omega)
  obtain ⟨h', e, c1, k1, r1⟩ := each_put (f := fun (t : Slot × List Nat) h => put t.1 t.2 h) (fun t => t.1)
    (fun t => t.2 ++ (contents h t.1).drop t.2.length) M (fun _ => 0) h (o.slots.zip a)
    (fun t ht h' H _ hc => by
      have hm : t.1 ∈ o.slots := (List.of_mem_zip (a := t.1) (b := t.2) ht).1
      obtain ⟨h1, p1, p2, p3, p4⟩ := put_ok (s := t.1) (a := t.2) H (fun p hp => hs p (hp ▸ hm)) (by rw [hc]; exact (hroom t ht).1)
      exact ⟨h1, p1, p2, p3, by rw [p4, hc]⟩)
    (by rw [hmp]; exact hko.uniq) (fun _ _ => rfl) h H (fun _ _ => rfl)
  rw [hmp] at k1
  refine ⟨h', e, c1, k1, ?_, ?_⟩
  · intro p
    by_cases hp : some p ∈ o.slots
    · rw [← hmp, List.mem_map] at hp
      obtain ⟨t, ht, hp⟩ := hp
      have := r1 t ht
      rw [hp] at this
      rw [this]
      have h3 := (hroom t ht).1
      rw [hp] at h3
      simp only [List.length_append, List.length_drop]; omega
    · rw [contents_cont, k1 p hp, ← contents_cont]
  · unfold value
    simp only
    congr 1
    apply List.ext_getElem
    · simp only [Obj.lens] at hlen; simp; omega
    · intro k hk hk'
      simp only [List.length_map, List.length_zip] at hk
      simp only [List.getElem_map, List.getElem_zip]
      have hr := zip_getElem (P := fun (t : Slot × List Nat) => contents h' t.1 = t.2 ++ (contents h t.1).drop t.2.length) r1 k (by omega) hk'
      have h3 := zip_getElem (P := fun (t : Slot × List Nat) => t.2.length ≤ (contents h t.1).length ∧ (t.1 = none → t.2 = [])) hroom k (by omega) hk'
      have e1 : a[k].length = if o.slots[k].isNone then 0 else (o.cls.lens o.dims o.m)[k] := by
        have : (a.map List.length)[k]'(by simpa using hk') = (room o)[k]'(by simp only [room, List.length_map, List.length_zip]; omega) := by simp only [ha]
        simpa [room] using this
      simp only at hr h3
      cases hs : o.slots[k] with
      | none => rw [h3.2 hs, contents_none]; simp
      | some p =>
        rw [hs] at hr e1
        simp only [Option.isNone_some, Bool.false_eq_true, if_false] at e1
        rw [hr, ← e1, List.take_left']
        rfl

theorem good_update {S : Stor} {U : Prop} {st : State} (I : Inv S U st) (i : Nat) (a : List (List Nat)) : Good S U (.update i a) st := by
  cases hi : st.at i with
  | none =>
    refine good_skip I (by simp only [step, hi]) (fun _ => ?_) (fun _ t F hF => rfl)
    simp only [vstep, view_getD, hi, Option.map_none]
  | some o =>
    have hko := I.ok i o hi
    by_cases ha : a.map List.length = room o
    · obtain ⟨h', e, c1, k1, hlens, hval⟩ := put_all I.cnt hko (fun p hp => refs_pos hi hp) ha
      have hok : ∀ x, Ok st.heap x → Ok h' x := by
        intro x hx
        refine ⟨hx.len, fun t ht hs => ?_, hx.null, hx.uniq⟩
        have h3 := hx.room t ht hs
        cases e : t.1 with
        | none => rw [e] at hs; cases hs
        | some p => rw [hlens p]; rw [e] at h3; exact h3
      have hst : st.set i (some o) h' = ⟨st.objs, h'⟩ := by
        unfold State.set; rw [set_getD st.objs i (some o) hi]
      refine ⟨st.set i (some o) h', ?_, ?_, ?_, ?_, ?_⟩
      · simp only [step, hi, if_pos ha]
        rw [bind_ok e]
      · rw [hst]
        exact ⟨c1, fun j x hj => hok x (I.ok j x hj), I.uniq, I.deep⟩
      · intro u
        have hkeep : Keeps (refs (st.objs.set i none)) st.heap h' := by
          intro p hp
          refine k1 p (fun hm => ?_)
          have h1 := I.uniqBase u hi p
          have h2 := cnt_pos.mpr hm
          simp only at h1
          omega
        rw [view_set hi hkeep]
        simp only [vstep, view_getD, hi, Option.map_some]
        rw [if_pos (by rw [value_lens hko]; exact ha), hval]
      · intro j x hj _
        rw [hst]
        refine ⟨hj, fun hav => ?_⟩
        refine value_keeps (L := fun p => cnt x.slots p) (fun p hp => k1 p (fun hm => ?_)) (fun p hp => cnt_pos.mpr hp)
        exact hav i a rfl o hi p hm (cnt_pos.mp hp)
      · intro _ t F hF
        rw [hst]
        exact hF.mono
    · refine good_skip I (by simp only [step, hi, if_neg ha]) (fun _ => ?_) (fun _ t F hF => rfl)
      simp only [vstep, view_getD, hi, Option.map_some]
      rw [if_neg (by rw [value_lens hko]; exact ha)]

theorem good_step {S : Stor} (hS : S ≠ .raw) {U : Prop} (hv : S = .vec → U) {st : State} (I : Inv S U st) (op : Op) (hop : U → S = .vec ∨ op.Deep) :
    Good S U op st := by
  cases op with
  | construct c v => exact good_construct I c v hop
  | default c => exact good_default I c hop
  | copy j junk => exact good_copy hS hv I j junk
  | assign i j junk => exact good_assign hS hv I i j junk
  | transpose i => exact good_transpose I i
  | free i => exact good_free hS I i
  | update i a => exact good_update I i a
  | take i k => exact good_take hS I i k (fun u => (hop u).elim id False.elim)
  | destroy i => exact good_destroy hS I i

theorem run_good {S : Stor} (hS : S ≠ .raw) {U : Prop} (hv : S = .vec → U) : ∀ (ops : List Op) (st : State), Inv S U st →
    (∀ op ∈ ops, U → S = .vec ∨ op.Deep) →
    ∃ st', run S ops st = .ok st' ∧ Inv S U st' ∧ (U → view st' = vrun ops (view st)) ∧
      (S = .shared → ∀ t F, Fam t F st.objs → Fam (t + ops.length) (families t ops F) st'.objs)
  | [], st, I, _ => ⟨st, rfl, I, fun _ => rfl, fun _ _ _ h => h⟩
  | op :: ops, st, I, hop => by
    obtain ⟨st1, e1, I1, v1, _, f1⟩ := good_step hS hv I op (hop op (by simp))
    obtain ⟨st2, e2, I2, v2, f2⟩ := run_good hS hv ops st1 I1 (fun o ho => hop o (by simp [ho]))
    refine ⟨st2, ?_, I2, fun u => ?_, fun e t F hF => ?_⟩
    · show (step S op st >>= _) = _
      rw [bind_ok e1]; exact e2
    · rw [v2 u, v1 u]; rfl
    · have := f2 e (t + 1) _ (f1 e t F hF)
      rw [List.length_cons, show t + (ops.length + 1) = t + 1 + ops.length by omega]
      exact this

end Pigo.Alias
