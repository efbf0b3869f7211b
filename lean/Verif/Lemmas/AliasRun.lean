import Verif.Lemmas.AliasObj

/-!
# Histories: owners, values and families
-/

namespace Pigo.Alias

open Pigo.Life (HFault HM Val)

def slotsOf : Option Obj → List Slot
  | none => []
  | some o => o.slots

/-- The number of references of the objects to `p`. -/
def refs : List (Option Obj) → Nat → Nat
  | [], _ => 0
  | o :: os, p => cnt (slotsOf o) p + refs os p

theorem refs_append (a b : List (Option Obj)) (p : Nat) : refs (a ++ b) p = refs a p + refs b p := by
  induction a with
  | nil => simp [refs]
  | cons o a ih => simp only [List.cons_append, refs, ih]; omega

theorem refs_add (objs : List (Option Obj)) (o : Obj) (p : Nat) : refs (objs ++ [some o]) p = refs objs p + cnt o.slots p := by
  rw [refs_append]; simp [refs, slotsOf]

theorem refs_split : ∀ (objs : List (Option Obj)) (i : Nat) (o : Obj), objs.getD i none = some o → ∀ p,
    refs objs p = refs (objs.set i none) p + cnt o.slots p
  | [], i, o, h, p => by simp at h
  | x :: objs, 0, o, h, p => by
    simp only [List.getD_cons_zero] at h
    subst h
    simp only [List.set_cons_zero, refs, slotsOf, cnt]; omega
  | x :: objs, i + 1, o, h, p => by
    simp only [List.getD_cons_succ] at h
    simp only [List.set_cons_succ, refs, refs_split objs i o h p]; omega

theorem refs_set : ∀ (objs : List (Option Obj)) (i : Nat) (o' : Option Obj), i < objs.length → ∀ p,
    refs (objs.set i o') p = refs (objs.set i none) p + cnt (slotsOf o') p
  | [], i, o, h, p => by simp at h
  | x :: objs, 0, o, h, p => by simp only [List.set_cons_zero, refs, slotsOf, cnt]; omega
  | x :: objs, i + 1, o, h, p => by
    simp only [List.set_cons_succ, refs, refs_set objs i o (by simpa using h) p]; omega

theorem getD_lt {α : Type} {l : List (Option α)} {i : Nat} {a : α} (h : l.getD i none = some a) : i < l.length := by
  by_contra hc
  rw [List.getD_eq_getElem?_getD, List.getElem?_eq_none (by omega)] at h
  cases h

theorem getD_set {α : Type} (l : List (Option α)) (i j : Nat) (x : Option α) (hi : i < l.length) :
    (l.set i x).getD j none = if i = j then x else l.getD j none := by
  rw [List.getD_eq_getElem?_getD, List.getD_eq_getElem?_getD, List.getElem?_set]
  by_cases e : i = j
  · subst e; simp [hi]
  · simp [e]

theorem getD_append {α : Type} (l : List (Option α)) (j : Nat) (x : Option α) :
    (l ++ [x]).getD j none = if j = l.length then x else l.getD j none := by
  rw [List.getD_eq_getElem?_getD, List.getD_eq_getElem?_getD, List.getElem?_append]
  by_cases e : j < l.length
  · simp [e]; intro h; omega
  · by_cases e' : j = l.length
    · subst e'; simp
    · simp only [e, e', if_false]
      rw [List.getElem?_eq_none (by simp; omega), List.getElem?_eq_none (by omega)]

theorem set_getD {α : Type} (l : List (Option α)) (i : Nat) (x : Option α) (h : l.getD i none = x) : l.set i x = l := by
  apply List.ext_getElem (by simp)
  intro j hj hj'
  rw [List.getElem_set]
  split
  · next e =>
    subst e
    rw [← h, List.getD_eq_getElem?_getD, List.getElem?_eq_getElem hj', Option.getD_some]
  · rfl

theorem refs_pos {objs : List (Option Obj)} {j : Nat} {o : Obj} (h : objs.getD j none = some o) {p : Nat} (hp : some p ∈ o.slots) : 0 < refs objs p := by
  have := refs_split objs j o h p
  have := cnt_pos.mpr hp
  omega

theorem refs_pos_other {objs : List (Option Obj)} {i j : Nat} {o : Obj} (hi : i < objs.length) (hij : i ≠ j) (h : objs.getD j none = some o) {p : Nat}
    (hp : some p ∈ o.slots) : 0 < refs (objs.set i none) p :=
  refs_pos (j := j) (o := o) (by rw [getD_set _ _ _ _ hi, if_neg hij]; exact h) hp

theorem refs_ex : ∀ {objs : List (Option Obj)} {p : Nat}, 0 < refs objs p → ∃ i o, objs.getD i none = some o ∧ some p ∈ o.slots
  | [], p, h => by simp [refs] at h
  | x :: objs, p, h => by
    by_cases hx : 0 < cnt (slotsOf x) p
    · cases x with
      | none => simp [slotsOf, cnt] at hx
      | some o => exact ⟨0, o, rfl, cnt_pos.mp hx⟩
    · obtain ⟨i, o, h1, h2⟩ := refs_ex (objs := objs) (p := p) (by simp only [refs] at h; omega)
      exact ⟨i + 1, o, by simpa using h1, h2⟩

/-! ## The invariant -/

structure Inv (S : Stor) (U : Prop) (st : State) : Prop where
  cnt : Cnt st.heap (refs st.objs)
  ok : ∀ i o, st.at i = some o → Ok st.heap o
  uniq : U → Uniq (refs st.objs)
  deep : U → S = .vec ∨ ∀ i o, st.at i = some o → o.cls.deep = true

theorem Inv.init (S : Stor) (U : Prop) : Inv S U State.init :=
  ⟨⟨fun _ _ => rfl, (fun _ _ _ h => by cases h), fun _ _ => rfl⟩, fun i o h => by simp [State.at, State.init] at h,
    fun _ p => by simp [State.init, refs], fun _ => Or.inr (fun i o h => by simp [State.at, State.init] at h)⟩

theorem uniq_of_fresh {L : Nat → Nat} {ss : List Slot} (hL : Uniq L) (hf : ∀ p, some p ∈ ss → L p = 0) (hc : ∀ p, cnt ss p ≤ 1) :
    Uniq (fun p => L p + cnt ss p) := by
  intro p
  by_cases hp : 0 < cnt ss p
  · have := hf p (cnt_pos.mp hp); have := hc p; simp only; omega
  · have := hL p; simp only; omega

theorem Inv.add {S : Stor} {U : Prop} {st : State} (I : Inv S U st) {o : Obj} {h : Heap} (c : Cnt h (fun p => refs st.objs p + Alias.cnt o.slots p))
    (k : Keeps (refs st.objs) st.heap h) (ho : Ok h o) (hu : U → ∀ p, some p ∈ o.slots → refs st.objs p = 0) (hd : U → S = .vec ∨ o.cls.deep = true) :
    Inv S U (st.add o h) := by
  have hat : ∀ j, (st.add o h).at j = if j = st.objs.length then some o else st.at j := fun j => getD_append _ _ _
  refine ⟨c.congr (fun p => (refs_add _ _ _).symm), ?_, ?_, ?_⟩
  · intro i o' hi
    rw [hat] at hi
    split at hi
    · cases hi; exact ho
    · exact (I.ok i o' hi).keeps k (fun p hp => refs_pos hi hp)
  · intro u p
    show refs (st.objs ++ [some o]) p ≤ 1
    rw [refs_add]
    exact uniq_of_fresh (I.uniq u) (hu u) ho.uniq p
  · intro u
    rcases hd u with hv | hd
    · exact Or.inl hv
    · rcases I.deep u with hv | hv
      · exact Or.inl hv
      · refine Or.inr (fun i o' hi => ?_)
        rw [hat] at hi
        split at hi
        · cases hi; exact hd
        · exact hv i o' hi

theorem Inv.base {S : Stor} {U : Prop} {st : State} (I : Inv S U st) {i : Nat} {o : Obj} (hi : st.at i = some o) :
    Cnt st.heap (fun p => refs (st.objs.set i none) p + Alias.cnt o.slots p) :=
  I.cnt.congr (refs_split st.objs i o hi)

theorem Inv.set {S : Stor} {U : Prop} {st : State} (I : Inv S U st) {i : Nat} {o : Obj} (hi : st.at i = some o) {o' : Option Obj} {h : Heap}
    (c : Cnt h (fun p => refs (st.objs.set i none) p + Alias.cnt (slotsOf o') p)) (k : Keeps (refs (st.objs.set i none)) st.heap h)
    (ho : ∀ x, o' = some x → Ok h x ∧ x.cls = o.cls)
    (hu : U → Uniq (fun p => refs (st.objs.set i none) p + Alias.cnt (slotsOf o') p)) : Inv S U (st.set i o' h) := by
  have hlt := getD_lt hi
  have hat : ∀ j, (st.set i o' h).at j = if i = j then o' else st.at j := fun j => getD_set _ _ _ _ hlt
  refine ⟨c.congr (fun p => (refs_set _ _ _ hlt p).symm), ?_, ?_, ?_⟩
  · intro j x hj
    rw [hat] at hj
    split at hj
    · exact (ho x hj).1
    · next hne => exact (I.ok j x hj).keeps k (fun p hp => refs_pos_other hlt hne hj hp)
  · intro u p
    show refs (st.objs.set i o') p ≤ 1
    rw [refs_set _ _ _ hlt]
    exact hu u p
  · intro u
    rcases I.deep u with hv | hv
    · exact Or.inl hv
    · refine Or.inr (fun j x hj => ?_)
      rw [hat] at hj
      split at hj
      · rw [(ho x hj).2]; exact hv i o hi
      · exact hv j x hj

theorem Inv.uniqBase {S : Stor} {U : Prop} {st : State} (I : Inv S U st) (u : U) {i : Nat} {o : Obj} (hi : st.at i = some o) :
    Uniq (fun p => refs (st.objs.set i none) p + Alias.cnt o.slots p) := by
  intro p
  have := I.uniq u p
  rw [refs_split st.objs i o hi] at this
  exact this

theorem Uniq.left {L M : Nat → Nat} (h : Uniq (fun p => L p + M p)) : Uniq L := fun p => by have := h p; simp only at this; omega

/-! ## Values -/

/-- All objects as a user sees them. -/
def view (st : State) : Vals := st.objs.map (Option.map (fun o => (o.cls, value st.heap o)))

theorem view_getD (st : State) (i : Nat) : (view st).getD i none = (st.at i).map (fun o => (o.cls, value st.heap o)) := by
  unfold view State.at
  rw [List.getD_eq_getElem?_getD, List.getD_eq_getElem?_getD, List.getElem?_map]
  cases st.objs[i]? <;> rfl

theorem ext_getD {α : Type} {l l' : List (Option α)} (hl : l.length = l'.length) (h : ∀ i, l.getD i none = l'.getD i none) : l = l' := by
  apply List.ext_getElem hl
  intro i hi hi'
  have := h i
  rw [List.getD_eq_getElem?_getD, List.getD_eq_getElem?_getD, List.getElem?_eq_getElem hi, List.getElem?_eq_getElem hi'] at this
  exact this

theorem view_add {st : State} {o : Obj} {h : Heap} (k : Keeps (refs st.objs) st.heap h) : view (st.add o h) = view st ++ [some (o.cls, value h o)] := by
  apply ext_getD
  · simp [view, State.add]
  · intro i
    rw [view_getD, getD_append]
    have e : (st.add o h).at i = if i = st.objs.length then some o else st.at i := getD_append _ _ _
    have hl : (view st).length = st.objs.length := by simp [view]
    rw [e, hl]
    split
    · rfl
    · rw [view_getD]
      cases hx : st.at i with
      | none => rfl
      | some x =>
        simp only [Option.map_some]
        have : value (st.add o h).heap x = value st.heap x := value_keeps k (fun p hp => refs_pos hx hp)
        rw [this]

theorem view_set {st : State} {i : Nat} {o : Obj} (hi : st.at i = some o) {o' : Option Obj} {h : Heap}
    (k : Keeps (refs (st.objs.set i none)) st.heap h) :
    view (st.set i o' h) = (view st).set i (o'.map (fun x => (x.cls, value h x))) := by
  have hlt := getD_lt hi
  apply ext_getD
  · simp [view, State.set]
  · intro j
    have hl : (view st).length = st.objs.length := by simp [view]
    rw [view_getD, getD_set _ _ _ _ (by rw [hl]; exact hlt)]
    have e : (st.set i o' h).at j = if i = j then o' else st.at j := getD_set _ _ _ _ hlt
    rw [e]
    split
    · rfl
    · next hne =>
      rw [view_getD]
      cases hx : st.at j with
      | none => rfl
      | some x =>
        simp only [Option.map_some]
        have : value (st.set i o' h).heap x = value st.heap x := value_keeps k (fun p hp => refs_pos_other hlt hne hx hp)
        rw [this]

theorem lens_length (c : Cls) (d : List Nat) (m : Nat) : (c.lens d m).length = (c.lens [] 0).length := by
  cases c with
  | array => rfl
  | coo w => cases w <;> rfl
  | tensor w => cases w <;> rfl
  | csr w => cases w <;> rfl
  | pair w => cases w <;> rfl

theorem lens_zero {c : Cls} (h : c.deep = true) (d : List Nat) : ∀ l ∈ c.lens d 0, l = 0 := by
  cases c with
  | coo w => cases w <;> simp [Cls.lens]
  | tensor w => cases w <;> simp [Cls.lens]
  | csr w => simp [Cls.deep] at h
  | pair w => simp [Cls.deep] at h
  | array => simp [Cls.deep] at h

theorem value_lens {h : Heap} {o : Obj} (k : Ok h o) : (value h o).arrs.map List.length = room o := by
  unfold value room
  simp only [List.map_map]
  apply List.map_congr_left
  intro t ht
  simp only [Function.comp, List.length_take]
  cases e : t.1 with
  | none => simp [contents_none]
  | some p =>
    have := k.room t ht (by simp [e])
    rw [e] at this
    simp only [Option.isNone_some, Bool.false_eq_true, if_false]
    omega

/-! ## Families -/

structure Fam (t : Nat) (F : List (Option (Cls × Nat))) (objs : List (Option Obj)) : Prop where
  len : F.length = objs.length
  cls : ∀ i, (F.getD i none).map Prod.fst = (objs.getD i none).map Obj.cls
  lt : ∀ i c f, F.getD i none = some (c, f) → f < t
  sep : ∀ i j o o' c f c' f', objs.getD i none = some o → objs.getD j none = some o' → F.getD i none = some (c, f) →
    F.getD j none = some (c', f') → f ≠ f' → ∀ p, some p ∈ o.slots → some p ∉ o'.slots

theorem Fam.mono {t : Nat} {F : List (Option (Cls × Nat))} {objs : List (Option Obj)} (h : Fam t F objs) : Fam (t + 1) F objs :=
  ⟨h.len, h.cls, fun i c f e => Nat.lt_succ_of_lt (h.lt i c f e), h.sep⟩

theorem Fam.get {t : Nat} {F : List (Option (Cls × Nat))} {objs : List (Option Obj)} (h : Fam t F objs) {i : Nat} {o : Obj} (ho : objs.getD i none = some o) :
    ∃ f, F.getD i none = some (o.cls, f) := by
  have := h.cls i
  rw [ho] at this
  cases e : F.getD i none with
  | none => rw [e] at this; cases this
  | some cf => obtain ⟨c, f⟩ := cf; rw [e] at this; cases this; exact ⟨f, rfl⟩

theorem Fam.get_none {t : Nat} {F : List (Option (Cls × Nat))} {objs : List (Option Obj)} (h : Fam t F objs) {i : Nat} (ho : objs.getD i none = none) :
    F.getD i none = none := by
  have := h.cls i
  rw [ho] at this
  cases e : F.getD i none with
  | none => rfl
  | some cf => rw [e] at this; cases this

/-- Changing objects and families at one position `i`, the slots of the new object being new or those of a member of its family. -/
theorem Fam.change {t : Nat} {F F' : List (Option (Cls × Nat))} {objs objs' : List (Option Obj)} (h : Fam t F objs) (i : Nat) (hlen : F'.length = objs'.length)
    {o' : Obj} {f' : Nat} (hF : ∀ j, F'.getD j none = if i = j then some (o'.cls, f') else F.getD j none)
    (hO : ∀ j, objs'.getD j none = if i = j then some o' else objs.getD j none) (hf : f' < t + 1)
    (hs : ∀ j o c f, i ≠ j → objs.getD j none = some o → F.getD j none = some (c, f) → f ≠ f' → ∀ p, some p ∈ o'.slots → some p ∉ o.slots) :
    Fam (t + 1) F' objs' := by
  refine ⟨hlen, ?_, ?_, ?_⟩
  · intro j
    rw [hF, hO]
    split
    · rfl
    · exact h.cls j
  · intro j c f e
    rw [hF] at e
    split at e
    · cases e; exact hf
    · exact Nat.lt_succ_of_lt (h.lt j c f e)
  · intro j k o x c f c' g hj hk hcj hck hne p hp hp'
    rw [hO] at hj hk
    rw [hF] at hcj hck
    by_cases e1 : i = j
    · rw [if_pos e1] at hj hcj
      cases hj; cases hcj
      by_cases e2 : i = k
      · rw [if_pos e2] at hck; cases hck; exact hne rfl
      · rw [if_neg e2] at hk hck
        exact hs k x c' g e2 hk hck (Ne.symm hne) p hp hp'
    · rw [if_neg e1] at hj hcj
      by_cases e2 : i = k
      · rw [if_pos e2] at hk hck
        cases hk; cases hck
        exact hs j o c f e1 hj hcj hne p hp' hp
      · rw [if_neg e2] at hk hck
        exact h.sep j k o x c f c' g hj hk hcj hck hne p hp hp'

theorem Fam.add {t : Nat} {F : List (Option (Cls × Nat))} {objs : List (Option Obj)} (h : Fam t F objs) {o' : Obj} {f' : Nat} (hf : f' < t + 1)
    (hs : ∀ j o c f, objs.getD j none = some o → F.getD j none = some (c, f) → f ≠ f' → ∀ p, some p ∈ o'.slots → some p ∉ o.slots) :
    Fam (t + 1) (F ++ [some (o'.cls, f')]) (objs ++ [some o']) := by
  refine h.change objs.length (by simp [h.len]) (fun j => ?_) (fun j => ?_) hf (fun j o c f _ => hs j o c f)
  · rw [getD_append, h.len]; by_cases e : j = objs.length <;> simp [e, eq_comm]
  · rw [getD_append]; by_cases e : j = objs.length <;> simp [e, eq_comm]

theorem Fam.setAt {t : Nat} {F : List (Option (Cls × Nat))} {objs : List (Option Obj)} (h : Fam t F objs) {i : Nat} (hi : i < objs.length) {o' : Obj} {f' : Nat}
    (hf : f' < t + 1)
    (hs : ∀ j o c f, i ≠ j → objs.getD j none = some o → F.getD j none = some (c, f) → f ≠ f' → ∀ p, some p ∈ o'.slots → some p ∉ o.slots) :
    Fam (t + 1) (F.set i (some (o'.cls, f'))) (objs.set i (some o')) :=
  h.change i (by simp [h.len]) (fun j => getD_set _ _ _ _ (by rw [h.len]; exact hi)) (fun j => getD_set _ _ _ _ hi) hf hs

/-- The object at `i` gets other slots of its own. -/
theorem Fam.reslot {t : Nat} {F : List (Option (Cls × Nat))} {objs : List (Option Obj)} (h : Fam t F objs) {i : Nat} {o o' : Obj} (hi : objs.getD i none = some o)
    (hc : o'.cls = o.cls) (hs : ∀ p, some p ∈ o'.slots → some p ∈ o.slots) : Fam (t + 1) F (objs.set i (some o')) := by
  obtain ⟨f, hf⟩ := h.get hi
  have hlt := getD_lt hi
  have := h.setAt hlt (o' := o') (f' := f) (Nat.lt_succ_of_lt (h.lt i _ f hf)) (fun j x c g _ hj hcj hne p hp =>
    h.sep i j o x _ f c g hi hj hf hcj (Ne.symm hne) p (hs p hp))
  rw [hc, set_getD F i _ hf] at this
  exact this

theorem Fam.kill {t : Nat} {F : List (Option (Cls × Nat))} {objs : List (Option Obj)} (h : Fam t F objs) {i : Nat} (hi : i < objs.length) :
    Fam (t + 1) (F.set i none) (objs.set i none) := by
  have hF : ∀ j, (F.set i none).getD j none = if i = j then none else F.getD j none := fun j => getD_set _ _ _ _ (by rw [h.len]; exact hi)
  have hO : ∀ j, (objs.set i none).getD j none = if i = j then none else objs.getD j none := fun j => getD_set _ _ _ _ hi
  refine ⟨by simp [h.len], ?_, ?_, ?_⟩
  · intro j; rw [hF, hO]; split
    · rfl
    · exact h.cls j
  · intro j c f e; rw [hF] at e; split at e
    · cases e
    · exact Nat.lt_succ_of_lt (h.lt j c f e)
  · intro j k o x c f c' g hj hk hcj hck hne
    rw [hO] at hj hk; rw [hF] at hcj hck
    split at hj
    · cases hj
    · split at hk
      · cases hk
      · next e1 e2 =>
        rw [if_neg e1] at hcj; rw [if_neg e2] at hck
        exact h.sep j k o x c f c' g hj hk hcj hck hne

end Pigo.Alias
