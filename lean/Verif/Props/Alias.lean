import Verif.Lemmas.AliasStep

/-!
# Copies of objects: what they share, and when memory is released

C103. `run S ops State.init` executes a history of constructions, copies, assignments, transposes, frees, stores and destructions
of COO, Tensor, CSR (Graph), DiGraph and Matrix objects, and of variables of the caller that hold one of their arrays, with storage
`S` (`Model/Alias`). `vrun` is the same history on plain data (`Spec/Alias`).
-/

namespace Pigo.Alias

open Pigo.Life (HFault HM Val)

/-- Exactly the blocks are allocated that an object refers to. -/
def NoLeak (st : State) : Prop := ∀ p, (∃ b, st.heap.mem p = some b) ↔ ∃ i o, st.at i = some o ∧ Refers o p

theorem Inv.noLeak {S : Stor} {U : Prop} {st : State} (I : Inv S U st) : NoLeak st := by
  intro p
  constructor
  · rintro ⟨⟨b, c⟩, h⟩
    obtain ⟨i, o, h1, h2⟩ := refs_ex (I.cnt.used p b c h).2
    exact ⟨i, o, h1, h2⟩
  · rintro ⟨i, o, h1, h2⟩
    obtain ⟨b, e⟩ := I.cnt.isSome (refs_pos h1 h2)
    exact ⟨_, e⟩

theorem view_init : view State.init = [] := rfl

/-- C103, `std::vector`: no history of operations on objects of any class fails, and afterwards every object has the contents it
has if objects are plain data: copies are equal to and independent of the original, whatever is done to either. Exactly the memory
of the objects that still exist is allocated. -/
theorem C103_vector_values (ops : List Op) :
    ∃ st, run .vec ops State.init = .ok st ∧
      (∀ i, (st.at i).map (fun o => (o.cls, value st.heap o)) = (vrun ops []).getD i none) ∧ NoLeak st := by
  obtain ⟨st, e, I, v, _⟩ := run_good (S := .vec) (by simp) (U := True) (fun _ => trivial) ops State.init (Inv.init _ _) (fun _ _ _ => Or.inl rfl)
  exact ⟨st, e, fun i => by rw [← view_getD, v trivial, view_init], I.noLeak⟩

/-- C103, `std::shared_ptr`: the same for histories of COO and Tensor objects, which copy their arrays. -/
theorem C103_shared_coo_values (ops : List Op) (h : ∀ op ∈ ops, op.Deep) :
    ∃ st, run .shared ops State.init = .ok st ∧
      (∀ i, (st.at i).map (fun o => (o.cls, value st.heap o)) = (vrun ops []).getD i none) ∧ NoLeak st := by
  obtain ⟨st, e, I, v, _⟩ := run_good (S := .shared) (by simp) (U := True) (fun _ => trivial) ops State.init (Inv.init _ _) (fun op ho _ => Or.inr (h op ho))
  exact ⟨st, e, fun i => by rw [← view_getD, v trivial, view_init], I.noLeak⟩

/-- C103, `std::shared_ptr`: no history of operations on objects of any class, and variables that hold their arrays, uses a block
after it was released or releases one twice; a block is allocated exactly as long as an object or variable refers to it. -/
theorem C103_shared_lifetime (ops : List Op) : ∃ st, run .shared ops State.init = .ok st ∧ NoLeak st := by
  obtain ⟨st, e, I, _⟩ := run_good (S := .shared) (by simp) (U := False) (fun h => by cases h) ops State.init (Inv.init _ _) (fun _ _ h => h.elim)
  exact ⟨st, e, I.noLeak⟩

/-- C103: after every history, whatever storage, the arrays of every object have the elements its sizes promise. -/
theorem C103_shape (S : Stor) (hS : S ≠ .raw) (ops : List Op) (st : State) (hr : run S ops State.init = .ok st) (i : Nat) (o : Obj)
    (hi : st.at i = some o) : Shaped st.heap o := by
  obtain ⟨st', e, I, _⟩ := run_good hS (U := S = .vec) id ops State.init (Inv.init _ _) (fun _ _ h => Or.inl h)
  rw [hr] at e; cases e
  have k := I.ok i o hi
  have key : HasRoom st.heap o.cls.deep o.slots (o.cls.lens o.dims o.m) := by
    refine ⟨k.len, fun t ht h => ?_⟩
    rcases h with h | h
    · exact k.room t ht h
    · exact k.roomAll h t ht
  obtain ⟨c, ss, d, m⟩ := o
  unfold Shaped
  dsimp only at key ⊢
  split <;> first | trivial | (simp only [Cls.lens, Cls.deep, if_true, if_false, Bool.false_eq_true, List.headD_cons, List.getD_cons_succ, List.getD_cons_zero] at key; exact key)

/-- C103: when the lifetime of all objects and variables has ended, nothing is allocated, without any call of `free()`. -/
theorem C103_nothing_left (S : Stor) (hS : S ≠ .raw) (ops : List Op) (st : State) (hr : run S ops State.init = .ok st) (h : ∀ i, st.at i = none) :
    ∀ p, st.heap.mem p = none := by
  intro p
  have key : NoLeak st := by
    cases S with
    | raw => exact absurd rfl hS
    | shared => obtain ⟨st', e, k⟩ := C103_shared_lifetime ops; rw [hr] at e; cases e; exact k
    | vec => obtain ⟨st', e, _, k⟩ := C103_vector_values ops; rw [hr] at e; cases e; exact k
  cases e : st.heap.mem p with
  | none => rfl
  | some b =>
    obtain ⟨i, o, h1, _⟩ := (key p).mp ⟨b, e⟩
    rw [h i] at h1; cases h1

/-- C103, `std::shared_ptr`: objects of different families (`Spec/Alias`: constructed separately, or separated by the copy of a COO
or Tensor) have no array in common, after every history. -/
theorem C103_families_apart (ops : List Op) (st : State) (hr : run .shared ops State.init = .ok st) (i j : Nat) (c c' : Cls) (f f' : Nat)
    (hi : (families 0 ops []).getD i none = some (c, f)) (hj : (families 0 ops []).getD j none = some (c', f')) (hne : f ≠ f') :
    ∃ o o', st.at i = some o ∧ o.cls = c ∧ st.at j = some o' ∧ o'.cls = c' ∧ ∀ p, Refers o p → ¬ Refers o' p := by
  obtain ⟨st', e, _, _, hf⟩ := run_good (S := .shared) (by simp) (U := False) (fun h => by cases h) ops State.init (Inv.init _ _) (fun _ _ h => h.elim)
  rw [hr] at e; cases e
  have F := hf rfl 0 [] ⟨rfl, fun i => rfl, fun i c f h => by simp at h, fun i j o o' c f c' f' h => by simp [State.init] at h⟩
  have get : ∀ i c f, (families 0 ops []).getD i none = some (c, f) → ∃ o, st.objs.getD i none = some o ∧ o.cls = c := by
    intro i c f h
    have := F.cls i
    rw [h] at this
    cases e : st.objs.getD i none with
    | none => rw [e] at this; cases this
    | some o => rw [e] at this; cases this; exact ⟨o, rfl, rfl⟩
  obtain ⟨o, ho, hc⟩ := get i c f hi
  obtain ⟨o', ho', hc'⟩ := get j c' f' hj
  exact ⟨o, o', ho, hc, ho', hc', F.sep i j o o' c f c' f' ho ho' hi hj hne⟩

/-- C103, `std::shared_ptr` and `std::vector`: after every history, one more operation leaves all objects it is not called on as they
are, except those that have an array in common with an object whose elements it stores. -/
theorem C103_others_unchanged (S : Stor) (hS : S ≠ .raw) (ops : List Op) (st : State) (hr : run S ops State.init = .ok st) (op : Op) (j : Nat) (o : Obj)
    (hj : st.at j = some o) (ht : op.target ≠ some j) (ha : op.Avoids st o) :
    ∃ st', run S (ops ++ [op]) State.init = .ok st' ∧ st'.at j = some o ∧ value st'.heap o = value st.heap o := by
  have hv : S = .vec → (S = .vec) := id
  obtain ⟨st1, e, I, _, _⟩ := run_good hS (U := S = .vec) hv ops State.init (Inv.init _ _) (fun _ _ h => Or.inl h)
  rw [hr] at e; cases e
  obtain ⟨st', e', _, _, ho, _⟩ := good_step hS (U := S = .vec) hv I op (fun h => Or.inl h)
  refine ⟨st', ?_, (ho j o hj ht).1, (ho j o hj ht).2 ha⟩
  have : ∀ (ops : List Op) (s : State), run S (ops ++ [op]) s = (run S ops s >>= fun s' => step S op s') := by
    intro ops
    induction ops with
    | nil =>
      intro s
      show (step S op s >>= fun s' => run S [] s') = step S op s
      cases step S op s <;> rfl
    | cons x xs ih =>
      intro s
      show (step S x s >>= fun s' => run S (xs ++ [op]) s') = ((step S x s >>= fun s' => run S xs s') >>= _)
      cases step S x s with
      | error e => rfl
      | ok s' => exact ih s'
  rw [this, bind_ok hr]
  exact e'

/-- C103, `std::shared_ptr`: storing elements in an object (`sort()`, or edits by the caller) changes no object of another family. -/
theorem C103_other_family_unchanged (ops : List Op) (st : State) (hr : run .shared ops State.init = .ok st) (i j : Nat) (a : List (List Nat))
    (c c' : Cls) (f f' : Nat) (hi : (families 0 ops []).getD i none = some (c, f)) (hj : (families 0 ops []).getD j none = some (c', f')) (hne : f ≠ f') :
    ∃ st' o, run .shared (ops ++ [.update i a]) State.init = .ok st' ∧ st.at j = some o ∧ st'.at j = some o ∧ value st'.heap o = value st.heap o := by
  obtain ⟨o, o', ho, _, ho', _, hap⟩ := C103_families_apart ops st hr i j c c' f f' hi hj hne
  have hij : i ≠ j := by rintro rfl; rw [hi] at hj; cases hj; exact hne rfl
  obtain ⟨st', e, h1, h2⟩ := C103_others_unchanged .shared (by simp) ops st hr (.update i a) j o' ho' (fun h => hij (Option.some.inj h)) (by
    intro i' a' he x hx p hp
    cases he
    rw [ho] at hx; cases hx
    exact hap p hp)
  exact ⟨st', o', e, ho', h1, h2⟩

/-! ## Copies of CSR, DiGraph and Matrix objects share their arrays -/

theorem each_id {f : Slot → Heap → HM (Slot × Heap)} : ∀ (ss : List Slot) (h : Heap) (ss' : List Slot) (h' : Heap),
    (∀ s h s' h', f s h = .ok (s', h') → s' = s) → each f ss h = .ok (ss', h') → ss' = ss
  | [], _, ss', _, _, e => by cases e; rfl
  | s :: ss, h, ss', h', hf, e => by
    have e' : (f s h >>= fun x => each f ss x.2 >>= fun y => Except.ok (x.1 :: y.1, y.2)) = .ok (ss', h') := e
    cases e1 : f s h with
    | error _ => rw [e1] at e'; cases e'
    | ok x =>
      obtain ⟨s1, h1⟩ := x
      rw [e1] at e'
      have e'' : (each f ss h1 >>= fun y => Except.ok (s1 :: y.1, y.2)) = .ok (ss', h') := e'
      cases e2 : each f ss h1 with
      | error _ => rw [e2] at e''; cases e''
      | ok y =>
        obtain ⟨ss1, h2⟩ := y
        rw [e2] at e''
        cases e''
        rw [hf s h s1 h1 e1, each_id ss h1 ss1 _ hf e2]

theorem dup_same {S : Stor} (hS : S ≠ .vec) (s : Slot) (h : Heap) (s' : Slot) (h' : Heap) (e : dup S s h = .ok (s', h')) : s' = s := by
  cases S with
  | vec => exact absurd rfl hS
  | raw => cases e; rfl
  | shared =>
    cases s with
    | none => cases e; rfl
    | some p =>
      simp only [dup, Heap.block] at e
      cases hm : h.mem p with
      | none => rw [hm] at e; cases e
      | some b => rw [hm] at e; cases e; rfl

/-- The operation ends the lifetime of `j` or assigns to it. -/
def Op.Replaces (op : Op) (j : Nat) : Prop := op = .destroy j ∨ ∃ k junk, op = .assign j k junk

theorem bind_eq_ok {α β : Type} {x : HM α} {f : α → HM β} {b : β} (h : (x >>= f) = .ok b) : ∃ a, x = .ok a ∧ f a = .ok b := by
  cases x with
  | error e => cases h
  | ok a => exact ⟨a, rfl, h⟩

theorem at_set_ne {st : State} {i j : Nat} (hne : i ≠ j) (o' : Option Obj) (h : Heap) : (st.set i o' h).at j = st.at j := by
  unfold State.set State.at
  simp only
  rw [List.getD_eq_getElem?_getD, List.getD_eq_getElem?_getD, List.getElem?_set_ne hne]

theorem at_add_lt {st : State} {j : Nat} {x : Obj} (hj : st.at j = some x) (o : Obj) (h : Heap) : (st.add o h).at j = some x := by
  have : (st.add o h).at j = if j = st.objs.length then some o else st.at j := getD_append _ _ _
  rw [this, if_neg (Nat.ne_of_lt (getD_lt hj)), hj]

/-- An object of a class without copy operations of its own stays as it is, but for the elements of its arrays. -/
theorem step_keeps {S : Stor} {op : Op} {st st' : State} {j : Nat} {o : Obj} (hj : st.at j = some o) (hd : o.cls.deep = false) (hr : ¬ op.Replaces j)
    (e : step S op st = .ok st') : st'.at j = some o := by
  cases op with
  | construct c v =>
    simp only [step] at e
    split at e
    · obtain ⟨x, _, e2⟩ := bind_eq_ok e; cases e2; exact at_add_lt hj _ _
    · cases e; exact hj
  | default c =>
    simp only [step] at e
    split at e <;> cases e
    · exact at_add_lt hj _ _
    · exact hj
  | copy k junk =>
    simp only [step] at e
    split at e
    · cases e; exact hj
    · split at e <;> (obtain ⟨x, _, e2⟩ := bind_eq_ok e; cases e2; exact at_add_lt hj _ _)
  | assign i k junk =>
    have hij : i ≠ j := fun h => hr (Or.inr ⟨k, junk, by rw [h]⟩)
    simp only [step] at e
    split at e
    · split at e
      · cases e; exact hj
      · split at e
        · obtain ⟨x, _, e2⟩ := bind_eq_ok e
          obtain ⟨y, _, e3⟩ := bind_eq_ok e2
          cases e3; rw [at_set_ne hij]; exact hj
        · obtain ⟨x, _, e2⟩ := bind_eq_ok e
          cases e2; rw [at_set_ne hij]; exact hj
    · cases e; exact hj
  | transpose i =>
    simp only [step] at e
    split at e
    · next x hx =>
      split at e
      · next w hc =>
        have hij : i ≠ j := by rintro rfl; rw [hj] at hx; cases hx; rw [hc] at hd; cases hd
        cases e; rw [at_set_ne hij]; exact hj
      · cases e; exact hj
    · cases e; exact hj
  | free i =>
    simp only [step] at e
    split at e
    · next x hx =>
      obtain ⟨y, e1, e2⟩ := bind_eq_ok e
      cases e2
      by_cases hij : i = j
      · subst hij
        rw [hj] at hx; cases hx
        have : y.1 = o := by
          simp only [freeObj, hd] at e1
          obtain ⟨z, _, e3⟩ := bind_eq_ok e1
          cases e3; rfl
        have h2 : (st.set i (some y.1) y.2).at i = if i = i then some y.1 else st.at i := getD_set _ _ _ _ (getD_lt hj)
        rw [h2, if_pos rfl, this]
      · rw [at_set_ne hij]; exact hj
    · cases e; exact hj
  | update i a =>
    simp only [step] at e
    split at e
    · next x hx =>
      split at e
      · obtain ⟨y, e1, e2⟩ := bind_eq_ok e
        cases e2
        by_cases hij : i = j
        · subst hij
          rw [hj] at hx; cases hx
          have h2 : (st.set i (some o) y).at i = if i = i then some o else st.at i := getD_set _ _ _ _ (getD_lt hj)
          rw [h2, if_pos rfl]
        · rw [at_set_ne hij]; exact hj
      · cases e; exact hj
    · cases e; exact hj
  | take i k =>
    simp only [step] at e
    split at e
    · split at e
      · obtain ⟨x, _, e2⟩ := bind_eq_ok e; cases e2; exact at_add_lt hj _ _
      · cases e; exact hj
    · cases e; exact hj
  | destroy i =>
    have hij : i ≠ j := fun h => hr (Or.inl (by rw [h]))
    simp only [step] at e
    split at e
    · obtain ⟨x, _, e2⟩ := bind_eq_ok e; cases e2; rw [at_set_ne hij]; exact hj
    · cases e; exact hj

theorem run_keeps {S : Stor} {j : Nat} {o : Obj} (hd : o.cls.deep = false) : ∀ (ops : List Op) (st st' : State), st.at j = some o →
    (∀ op ∈ ops, ¬ op.Replaces j) → run S ops st = .ok st' → st'.at j = some o
  | [], st, st', hj, _, e => by cases e; exact hj
  | op :: ops, st, st', hj, hr, e => by
    obtain ⟨s1, e1, e2⟩ := bind_eq_ok (show (step S op st >>= fun s => run S ops s) = .ok st' from e)
    exact run_keeps hd ops s1 st' (step_keeps hj hd (hr op (by simp)) e1) (fun x hx => hr x (by simp [hx])) e2

theorem run_append {S : Stor} : ∀ (ops ops' : List Op) (st st' : State), run S (ops ++ ops') st = .ok st' →
    ∃ s, run S ops st = .ok s ∧ run S ops' s = .ok st'
  | [], _, st, _, e => ⟨st, rfl, e⟩
  | op :: ops, ops', st, st', e => by
    obtain ⟨s1, e1, e2⟩ := bind_eq_ok (show (step S op st >>= fun s => run S (ops ++ ops') s) = .ok st' from e)
    obtain ⟨s, e3, e4⟩ := run_append ops ops' s1 st' e2
    exact ⟨s, by show (step S op st >>= fun s => run S ops s) = _; rw [bind_ok e1]; exact e3, e4⟩

/-- C103 fails for raw pointers and `std::shared_ptr`: after copying a CSR, Graph, DiGraph or Matrix, the copy and the original are
the same object for the caller as long as neither is assigned to or destroyed: whatever is stored in one (also by `sort()` or
`new_csr_without_dups()`) is in the other. -/
theorem C103_copies_are_one_violated (S : Stor) (hS : S ≠ .vec) (ops ops' : List Op) (st st' : State) (j : Nat) (o : Obj) (junk : Nat → Nat)
    (hr : run S ops State.init = .ok st) (hj : st.at j = some o) (hd : o.cls.deep = false)
    (hr' : run S (ops ++ .copy j junk :: ops') State.init = .ok st')
    (hk : ∀ op ∈ ops', ¬ op.Replaces j ∧ ¬ op.Replaces st.objs.length) :
    st'.at j = some o ∧ st'.at st.objs.length = some o ∧
      (st'.at st.objs.length).map (value st'.heap) = (st'.at j).map (value st'.heap) := by
  obtain ⟨s, e1, e2⟩ := run_append ops _ _ _ hr'
  rw [hr] at e1; cases e1
  obtain ⟨s1, e3, e4⟩ := bind_eq_ok (show (step S (.copy j junk) st >>= fun s => run S ops' s) = .ok st' from e2)
  have hcopy : s1.at j = some o ∧ s1.at st.objs.length = some o := by
    simp only [step, hj, hd, Bool.false_eq_true, if_false] at e3
    obtain ⟨x, e5, e6⟩ := bind_eq_ok e3
    cases e6
    refine ⟨at_add_lt hj _ _, ?_⟩
    have : (st.add x.1 x.2).at st.objs.length = if st.objs.length = st.objs.length then some x.1 else st.at st.objs.length := getD_append _ _ _
    rw [this, if_pos rfl]
    simp only [shallowCopy] at e5
    obtain ⟨y, e7, e8⟩ := bind_eq_ok e5
    cases e8
    rw [each_id o.slots st.heap y.1 y.2 (fun s h s' h' e => dup_same hS s h s' h' e) e7]
  have h1 := run_keeps hd ops' s1 st' hcopy.1 (fun op ho => (hk op ho).1) e4
  have h2 := run_keeps hd ops' s1 st' hcopy.2 (fun op ho => (hk op ho).2) e4
  exact ⟨h1, h2, by rw [h1, h2]⟩

/-- C103 fails for raw pointers and `std::shared_ptr`: if a CSR, DiGraph or Matrix with contents `v` is copied and other elements are
stored in the copy, the original has the other elements. -/
theorem C103_edit_of_copy_violated (S : Stor) (hS : S ≠ .vec) (c : Cls) (hd : c.deep = false) (v : Val) (a : List (List Nat)) (junk : Nat → Nat)
    (hv : v.arrs.map List.length = c.lens v.dims v.m) (ha : a.map List.length = c.lens v.dims v.m) (hne : a ≠ v.arrs) :
    ∃ st st' o, run S [.construct c v, .copy 0 junk] State.init = .ok st ∧ st.at 0 = some o ∧ value st.heap o = v ∧
      run S [.construct c v, .copy 0 junk, .update 1 a] State.init = .ok st' ∧ st'.at 0 = some o ∧ value st'.heap o = { v with arrs := a } ∧
      value st'.heap o ≠ v := by
  obtain ⟨ss, h1, e1, c1, _, ho, hval, _⟩ := construct_ok (Inv.init S False).cnt c v hv
  have hroom : room ⟨c, ss, v.dims, v.m⟩ = c.lens v.dims v.m := by rw [← value_lens ho, hval, hv]
  have hs : ∀ p, some p ∈ ss → 0 < refs State.init.objs p + cnt ss p := fun p hp => by have := cnt_pos.mpr hp; omega
  have hstep1 : step S (.construct c v) State.init = .ok (State.init.add ⟨c, ss, v.dims, v.m⟩ h1) := by
    simp only [step, if_pos hv]; rw [bind_ok e1]
  -- the copy: the same slots
  obtain ⟨h2, M, e2, c2, hs2, hval2, ho2⟩ : ∃ h2 M, shallowCopy S none ⟨c, ss, v.dims, v.m⟩ h1 = .ok (⟨c, ss, v.dims, v.m⟩, h2) ∧ Cnt h2 M ∧
      (∀ p, some p ∈ ss → 0 < M p) ∧ value h2 ⟨c, ss, v.dims, v.m⟩ = v ∧ Ok h2 ⟨c, ss, v.dims, v.m⟩ := by
    cases S with
    | vec => exact absurd rfl hS
    | raw =>
      refine ⟨h1, _, ?_, c1, hs, hval, ho⟩
      have : ∀ ss : List Slot, each (fun s h => dup .raw s h) ss h1 = .ok (ss, h1) := by
        intro ss
        induction ss with
        | nil => rfl
        | cons s ss ih =>
          show (dup .raw s h1 >>= fun x => each (fun s h => dup .raw s h) ss x.2 >>= fun y => Except.ok (x.1 :: y.1, y.2)) = _
          show (each (fun s h => dup .raw s h) ss h1 >>= fun y => Except.ok (s :: y.1, y.2)) = _
          rw [bind_ok ih]
      simp only [shallowCopy]
      rw [bind_ok (this ss)]
    | shared =>
      obtain ⟨o', h', e, c2, k2, hc, ho', hval', hsh, _⟩ := shallowNew_ok (S := .shared) (by simp) c1 ho hs
      have hslots := hsh rfl
      have : o' = ⟨c, ss, v.dims, v.m⟩ := by
        simp only [shallowCopy] at e
        obtain ⟨y, e7, e8⟩ := bind_eq_ok e
        cases e8
        simp only at hslots
        rw [hslots]
      subst this
      exact ⟨h', _, e, c2, fun p hp => by have := cnt_pos.mpr hp; simp only; omega, by rw [hval', hval], ho'⟩
  have hstep2 : step S (.copy 0 junk) (State.init.add ⟨c, ss, v.dims, v.m⟩ h1) =
      .ok ((State.init.add ⟨c, ss, v.dims, v.m⟩ h1).add ⟨c, ss, v.dims, v.m⟩ h2) := by
    have : (State.init.add ⟨c, ss, v.dims, v.m⟩ h1).at 0 = some ⟨c, ss, v.dims, v.m⟩ := rfl
    simp only [step, this, hd, Bool.false_eq_true, if_false]
    exact bind_ok e2 _
  obtain ⟨h3, e3, _, _, _, hval3⟩ := put_all c2 ho2 hs2 (a := a) (by rw [ha, hroom])
  have hstep3 : step S (.update 1 a) ((State.init.add ⟨c, ss, v.dims, v.m⟩ h1).add ⟨c, ss, v.dims, v.m⟩ h2) =
      .ok (((State.init.add ⟨c, ss, v.dims, v.m⟩ h1).add ⟨c, ss, v.dims, v.m⟩ h2).set 1 (some ⟨c, ss, v.dims, v.m⟩) h3) := by
    have : ((State.init.add ⟨c, ss, v.dims, v.m⟩ h1).add ⟨c, ss, v.dims, v.m⟩ h2).at 1 = some ⟨c, ss, v.dims, v.m⟩ := rfl
    simp only [step, this, hroom, if_pos ha]
    exact bind_ok e3 _
  refine ⟨(State.init.add ⟨c, ss, v.dims, v.m⟩ h1).add ⟨c, ss, v.dims, v.m⟩ h2,
    ((State.init.add ⟨c, ss, v.dims, v.m⟩ h1).add ⟨c, ss, v.dims, v.m⟩ h2).set 1 (some ⟨c, ss, v.dims, v.m⟩) h3,
    ⟨c, ss, v.dims, v.m⟩, ?_, rfl, hval2, ?_, rfl, ?_, ?_⟩
  · show (step S _ _ >>= fun s => run S _ s) = _
    rw [bind_ok hstep1]
    show (step S _ _ >>= fun s => run S _ s) = _
    rw [bind_ok hstep2]; rfl
  · show (step S _ _ >>= fun s => run S _ s) = _
    rw [bind_ok hstep1]
    show (step S _ _ >>= fun s => run S _ s) = _
    rw [bind_ok hstep2]
    show (step S _ _ >>= fun s => run S _ s) = _
    rw [bind_ok hstep3]; rfl
  · show value h3 _ = _
    rw [hval3, hval2]
  · show value h3 _ ≠ _
    rw [hval3, hval2]
    intro h
    exact hne (congrArg Val.arrs h)

/-! ## Concrete histories -/

/-- A CSR of three vertices with the rows [2, 1], [], [0]; another one; a copy of the first, edited (its first row sorted); a COO and
its transposed copy; a variable holding the endpoints of the first CSR, which is then destroyed. -/
def exOps : List Op :=
  [ .construct (.csr false) ⟨[[2, 1, 0], [0, 2, 2, 3]], [3, 3, 3], 3⟩, .construct (.csr false) ⟨[[1], [0, 1, 1]], [2, 2, 2], 1⟩,
    .copy 0 (fun _ => 7), .update 2 [[1, 2, 0], [0, 2, 2, 3]], .construct (.coo false) ⟨[[0, 1], [1, 2]], [3, 3, 3], 2⟩,
    .copy 3 (fun _ => 7), .transpose 4, .take 0 0, .free 3, .assign 3 4 (fun _ => 9), .destroy 0, .destroy 2 ]

/-- The contents of object `i` after a history, if it exists and nothing fails. -/
def after (S : Stor) (ops : List Op) (i : Nat) : Option (List (List Nat)) :=
  match run S ops State.init with
  | .ok st => (st.at i).map (fun o => (value st.heap o).arrs)
  | .error _ => none

/-- After four operations the CSR that was copied has the sorted row with `shared_ptr`s and raw pointers, its own with `vector`s. -/
example : after .shared (exOps.take 4) 0 = some [[1, 2, 0], [0, 2, 2, 3]] ∧ after .raw (exOps.take 4) 0 = some [[1, 2, 0], [0, 2, 2, 3]] ∧
    after .vec (exOps.take 4) 0 = some [[2, 1, 0], [0, 2, 2, 3]] := by decide +kernel

/-- At the end the variable still has the endpoints, and the second CSR and the COOs are as on plain data. -/
example : after .shared exOps 5 = some [[1, 2, 0]] ∧ after .vec exOps 5 = some [[2, 1, 0]] ∧ after .shared exOps 1 = some [[1], [0, 1, 1]] ∧
    after .shared exOps 3 = some [[1, 2], [0, 1]] ∧ after .vec exOps 3 = some [[1, 2], [0, 1]] ∧ after .shared exOps 0 = none := by decide +kernel

/-- The families: the second CSR is not in the family of the first, its copy and the variable are. -/
example : families 0 exOps [] = [none, some (.csr false, 1), none, some (.coo false, 9), some (.coo false, 5), some (.array, 0)] := by
  decide +kernel

/-- Hypotheses of `C103_edit_of_copy_violated`: sorting a row of the copy. -/
example : (Cls.csr false).deep = false ∧ ([[2, 1, 0], [0, 2, 2, 3]] : List (List Nat)).map List.length = (Cls.csr false).lens [3, 3, 3] 3 ∧
    ([[1, 2, 0], [0, 2, 2, 3]] : List (List Nat)).map List.length = (Cls.csr false).lens [3, 3, 3] 3 ∧
    ([[1, 2, 0], [0, 2, 2, 3]] : List (List Nat)) ≠ [[2, 1, 0], [0, 2, 2, 3]] := by decide

/-- A history of COOs only, for `C103_shared_coo_values`. -/
example : ∀ op ∈ [Op.construct (.coo true) ⟨[[0], [1], [5]], [2, 2, 2], 1⟩, .copy 0 (fun _ => 3), .update 1 [[1], [1], [6]], .free 0, .destroy 0], op.Deep := by
  simp [Op.Deep, Cls.deep]

end Pigo.Alias
