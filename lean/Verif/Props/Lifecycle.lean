import Verif.Lemmas.Life

/-!
# Life cycle of COO and Tensor objects with raw pointer storage

C63 and the independence part of C70. `run K ops State.init` executes a history of constructions, copies, copy-assignments,
transposes, frees and stores of the user over any number of objects; `badFree` and `badAccess` are its faults
(`Model/Life`). `vrun` is the same history on plain data (`Spec/Life`).
-/

namespace Pigo.Life

/-- A history: two objects, a copy, a self-assignment, an assignment over a live object, an edit of the copy, frees (one
of them repeated), a copy of the freed object and of a default-constructed one. -/
def exHistory : List Op :=
  [ .construct 0 ⟨[[1, 2, 3], [4, 5, 6]], [7, 4, 7], 3⟩, .construct 1 ⟨[[9], [8]], [10, 10, 9], 1⟩,
    .copy 2 0 (fun _ _ => 77), .assign 0 0 (fun _ _ => 5), .assign 1 2 (fun _ k => k), .transpose 2, .write 2 0 1 42,
    .free 0, .free 0, .copy 3 0 (fun _ _ => 1), .default 4 [0, 0, 0], .assign 3 4 (fun _ _ => 1), .free 4,
    .assign 0 1 (fun _ _ => 6), .free 1, .destroy 1, .write 0 1 0 99 ]

/-- C63, C70 for any kind of object with the structure of COO and Tensor. -/
theorem lifecycle {K : Kind} (hK : K.Good) (ops : List Op) :
    ∃ st, run K ops State.init = .ok st ∧
      (∀ i k j l p, Owns st i k p → Owns st j l p → i = j ∧ k = l) ∧
      (∀ i k p, Owns st i k p → ∃ a b, p = some a ∧ st.heap.mem a = some b) ∧
      ∀ i, (st.objs i).map (value st.heap) = vrun K ops (fun _ => none) i := by
  obtain ⟨st, e, I⟩ := run_inv hK ops (Inv.init K False) (fun h => h.elim)
  refine ⟨st, e, ?_, ?_, ?_⟩
  · rintro i k j l p ⟨o, ho, hm, hk⟩ ⟨o', ho', hm', hl⟩
    by_cases hij : i = j
    · subst hij
      obtain rfl := Option.some.inj (ho.symm.trans ho')
      obtain ⟨hk1, hk2⟩ := List.getElem?_eq_some_iff.mp hk
      obtain ⟨hl1, hl2⟩ := List.getElem?_eq_some_iff.mp hl
      have hpw := List.pairwise_iff_getElem.mp (I.nodup i o ho hm)
      refine ⟨rfl, ?_⟩
      by_contra hne
      rcases Nat.lt_or_gt_of_ne hne with hlt | hlt
      · exact hpw k l hk1 hl1 hlt (hk2.trans hl2.symm)
      · exact hpw l k hl1 hk1 hlt (hl2.trans hk2.symm)
    · exact absurd (List.mem_of_getElem? hl) (I.sep i j o o' hij ho ho' hm hm' p (List.mem_of_getElem? hk))
  · rintro i k p ⟨o, ho, hm, hk⟩
    obtain ⟨v, _, r⟩ := I.rep i o ho
    have := r.isSome hm p (List.mem_of_getElem? hk)
    cases p with
    | none => simp at this
    | some a =>
      obtain ⟨b, hb⟩ := Option.isSome_iff_exists.mp this
      exact ⟨a, b, rfl, hb⟩
  · intro i
    cases hi : st.objs i with
    | none => rw [I.dom i hi]; rfl
    | some o =>
      obtain ⟨v, hv, r⟩ := I.rep i o hi
      rw [hv, Option.map_some, r.value hK]

/-- C63: no history of constructions, copies, copy-assignments (also self-assignments), transposes, frees (also repeated),
edits and destructions of COO objects frees a block twice (or frees anything that is not an allocated block) or reads or
writes through a pointer to a freed block or outside of a block: the history runs through. Afterwards, no two arrays of
objects with entries share a block (neither of different objects nor of one object), and every array of an object with
entries is an allocated block. -/
theorem C63_coo_history (wgt : Bool) (ops : List Op) :
    ∃ st, run (cooKind wgt) ops State.init = .ok st ∧
      (∀ i k j l p, Owns st i k p → Owns st j l p → i = j ∧ k = l) ∧
      (∀ i k p, Owns st i k p → ∃ a b, p = some a ∧ st.heap.mem a = some b) := by
  obtain ⟨st, e, h1, h2, _⟩ := lifecycle (cooKind_good wgt) ops
  exact ⟨st, e, h1, h2⟩

/-- C63: the same for Tensor objects. -/
theorem C63_tensor_history (wgt : Bool) (ops : List Op) :
    ∃ st, run (tensorKind wgt) ops State.init = .ok st ∧
      (∀ i k j l p, Owns st i k p → Owns st j l p → i = j ∧ k = l) ∧
      (∀ i k p, Owns st i k p → ∃ a b, p = some a ∧ st.heap.mem a = some b) := by
  obtain ⟨st, e, h1, h2, _⟩ := lifecycle (tensorKind_good wgt) ops
  exact ⟨st, e, h1, h2⟩

/-- C70: after every history, the contents of every COO are those it has if objects were plain data: a copy or assignment
reproduces the source, a transpose swaps the rows and columns of the one object it is called on, an edit changes one element
of one object, and no operation on one object changes another one. -/
theorem C70_coo_independent (wgt : Bool) (ops : List Op) :
    ∃ st, run (cooKind wgt) ops State.init = .ok st ∧
      ∀ i, (st.objs i).map (value st.heap) = vrun (cooKind wgt) ops (fun _ => none) i := by
  obtain ⟨st, e, _, _, h3⟩ := lifecycle (cooKind_good wgt) ops
  exact ⟨st, e, h3⟩

/-- C70: the same for Tensor objects. -/
theorem C70_tensor_independent (wgt : Bool) (ops : List Op) :
    ∃ st, run (tensorKind wgt) ops State.init = .ok st ∧
      ∀ i, (st.objs i).map (value st.heap) = vrun (tensorKind wgt) ops (fun _ => none) i := by
  obtain ⟨st, e, _, _, h3⟩ := lifecycle (tensorKind_good wgt) ops
  exact ⟨st, e, h3⟩

theorem vrun_append (K : Kind) : ∀ (ops ops' : List Op) (A : Vals), vrun K (ops ++ ops') A = vrun K ops' (vrun K ops A)
  | [], _, _ => rfl
  | op :: ops, ops', A => vrun_append K ops ops' (vstep K op A)

/-- The object an operation is called on. -/
def Op.target : Op → Nat
  | .construct i _ | .default i _ | .copy i _ _ | .assign i _ _ | .transpose i | .free i | .write i _ _ _ | .destroy i => i

theorem vstep_other (K : Kind) (op : Op) (A : Vals) (j : Nat) (h : j ≠ op.target) : vstep K op A j = A j := by
  have key : ∀ v, A.set op.target v j = A j := fun v => if_neg h
  cases op with
  | construct i v => simp only [vstep]; split <;> first | rfl | exact key _
  | default i d => simp only [vstep]; split <;> first | rfl | exact key _
  | copy i k _ => simp only [vstep]; cases A i <;> cases A k <;> first | rfl | exact key _
  | assign i k _ => simp only [vstep]; cases A i <;> cases A k <;> first | rfl | exact key _
  | transpose i => simp only [vstep]; cases A i <;> cases K.swaps <;> first | rfl | exact key _
  | free i =>
    simp only [vstep]
    cases A i with
    | none => rfl
    | some v => simp only; split <;> first | rfl | exact key _
  | write i a k v => simp only [vstep]; cases A i <;> first | rfl | exact key _
  | destroy i => exact key _

theorem vrun_other (K : Kind) (j : Nat) : ∀ (ops : List Op) (A : Vals), (∀ op ∈ ops, op.target ≠ j) → vrun K ops A j = A j
  | [], _, _ => rfl
  | op :: ops, A, h => by
    show vrun K ops (vstep K op A) j = A j
    rw [vrun_other K j ops _ (fun o ho => h o (by simp [ho])), vstep_other K op A j (fun hc => h op (by simp) hc.symm)]

/-- C63: after every history, an object has the arrays of its kind, of the sizes that its fields say: a COO two of `m` labels and, if it is weighted,
one of `m` weights; a Tensor one of `order * m` coordinates and, if it is weighted, one of `m` weights. -/
theorem C63_shape (wgt : Bool) (ops : List Op) :
    (∃ st, run (cooKind wgt) ops State.init = .ok st ∧
      ∀ i o, st.objs i = some o → (value st.heap o).arrs.map List.length = List.replicate (if wgt then 3 else 2) o.m) ∧
    (∃ st, run (tensorKind wgt) ops State.init = .ok st ∧
      ∀ i o, st.objs i = some o → ∀ order, o.dims = [order] →
        (value st.heap o).arrs.map List.length = order * o.m :: if wgt then [o.m] else []) := by
  have key : ∀ {K : Kind}, K.Good → ∃ st, run K ops State.init = .ok st ∧
      ∀ i o, st.objs i = some o → (value st.heap o).arrs.map List.length = K.lens o.dims o.m := by
    intro K hK
    obtain ⟨st, e, I⟩ := run_inv hK ops (Inv.init K False) (fun h => h.elim)
    refine ⟨st, e, fun i o ho => ?_⟩
    obtain ⟨v, _, r⟩ := I.rep i o ho
    rw [r.value hK, r.lens]
  constructor
  · obtain ⟨st, e, h⟩ := key (cooKind_good wgt)
    refine ⟨st, e, fun i o ho => ?_⟩
    rw [h i o ho]
    cases wgt <;> rfl
  · obtain ⟨st, e, h⟩ := key (tensorKind_good wgt)
    refine ⟨st, e, fun i o ho order hd => ?_⟩
    rw [h i o ho, hd]
    cases wgt <;> rfl

/-- C63: after `free()` the object has no entries; a COO keeps its dimensions, and a Tensor that had entries has the order 0. -/
theorem C63_freed (wgt : Bool) (ops : List Op) (i : Nat) :
    (∃ st st', run (cooKind wgt) ops State.init = .ok st ∧ run (cooKind wgt) (ops ++ [.free i]) State.init = .ok st' ∧
      ∀ o, st.objs i = some o → ∃ o', st'.objs i = some o' ∧ o'.m = 0 ∧ o'.dims = o.dims) ∧
    (∃ st st', run (tensorKind wgt) ops State.init = .ok st ∧ run (tensorKind wgt) (ops ++ [.free i]) State.init = .ok st' ∧
      ∀ o, st.objs i = some o → ∃ o', st'.objs i = some o' ∧ o'.m = 0 ∧ (0 < o.m → o'.dims = [0])) := by
  have key : ∀ {K : Kind}, K.Good → ∃ st st', run K ops State.init = .ok st ∧ run K (ops ++ [.free i]) State.init = .ok st' ∧
      ∀ o, st.objs i = some o → ∃ o', st'.objs i = some o' ∧ o'.m = 0 ∧ o'.dims = if 0 < o.m then K.freed o.dims else o.dims := by
    intro K hK
    obtain ⟨st, e, _, _, h⟩ := lifecycle hK ops
    obtain ⟨st', e', _, _, h'⟩ := lifecycle hK (ops ++ [.free i])
    refine ⟨st, st', e, e', fun o ho => ?_⟩
    have h1 := h i
    have h2 := h' i
    rw [vrun_append] at h2
    rw [ho, Option.map_some] at h1
    simp only [vrun, vstep, ← h1] at h2
    cases ho' : st'.objs i with
    | none => rw [ho'] at h2; split at h2 <;> simp [Vals.set, ← h1] at h2
    | some o' =>
      refine ⟨o', rfl, ?_⟩
      rw [ho', Option.map_some] at h2
      by_cases hm : 0 < o.m
      · rw [if_pos (by simpa [value] using hm)] at h2
        simp only [Vals.set, if_true] at h2
        have h3 := Option.some.inj h2
        have := congrArg Val.m h3
        have := congrArg Val.dims h3
        simp only [value, emptyVal] at *
        simp_all
      · rw [if_neg (by simpa [value] using hm), ← h1] at h2
        have h3 := Option.some.inj h2
        have := congrArg Val.m h3
        have := congrArg Val.dims h3
        simp only [value] at *
        rw [if_neg hm]
        refine ⟨by omega, by assumption⟩
  refine ⟨?_, ?_⟩
  · obtain ⟨st, st', e, e', h⟩ := key (cooKind_good wgt)
    refine ⟨st, st', e, e', fun o ho => ?_⟩
    obtain ⟨o', h1, h2, h3⟩ := h o ho
    exact ⟨o', h1, h2, by rw [h3]; simp [cooKind]⟩
  · obtain ⟨st, st', e, e', h⟩ := key (tensorKind_good wgt)
    refine ⟨st, st', e, e', fun o ho => ?_⟩
    obtain ⟨o', h1, h2, h3⟩ := h o ho
    exact ⟨o', h1, h2, fun hm => by rw [h3, if_pos hm]; rfl⟩

/-- A tensor of three entries of order 2, freed. -/
example : (run (tensorKind false) [.construct 0 ⟨[[1, 2, 3, 4, 5, 6]], [2], 3⟩] State.init).toOption.bind (fun st => st.objs 0) = some ⟨[some 0], [2], 3⟩ ∧
    (run (tensorKind false) [.construct 0 ⟨[[1, 2, 3, 4, 5, 6]], [2], 3⟩, .free 0] State.init).toOption.bind (fun st => st.objs 0) = some ⟨[some 0], [0], 0⟩ :=
  ⟨rfl, rfl⟩

/-- C70: whatever happens to other objects (also copies of it), an object keeps its contents. -/
theorem C70_others_unchanged (wgt : Bool) (ops ops' : List Op) (j : Nat) (h : ∀ op ∈ ops', op.target ≠ j) :
    ∃ st st', run (cooKind wgt) ops State.init = .ok st ∧ run (cooKind wgt) (ops ++ ops') State.init = .ok st' ∧
      (st'.objs j).map (value st'.heap) = (st.objs j).map (value st.heap) := by
  obtain ⟨st, e, h3⟩ := C70_coo_independent wgt ops
  obtain ⟨st', e', h3'⟩ := C70_coo_independent wgt (ops ++ ops')
  refine ⟨st, st', e, e', ?_⟩
  rw [h3, h3', vrun_append, vrun_other _ j ops' _ h]

/-- C70: right after `COO i(j)`, or `i = j` for existing objects, the contents of `i` are those of `j`. -/
theorem C70_copy_equal (wgt : Bool) (ops : List Op) (i j : Nat) (junk : Nat → Nat → Nat) :
    ∃ st st1 st2, run (cooKind wgt) ops State.init = .ok st ∧
      run (cooKind wgt) (ops ++ [.copy i j junk]) State.init = .ok st1 ∧
      run (cooKind wgt) (ops ++ [.assign i j junk]) State.init = .ok st2 ∧
      ((st.objs i = none) → (st.objs j).isSome → (st1.objs i).map (value st1.heap) = (st.objs j).map (value st.heap)) ∧
      ((st.objs i).isSome → (st.objs j).isSome → (st2.objs i).map (value st2.heap) = (st.objs j).map (value st.heap)) := by
  obtain ⟨st, e, h⟩ := C70_coo_independent wgt ops
  obtain ⟨st1, e1, h1⟩ := C70_coo_independent wgt (ops ++ [.copy i j junk])
  obtain ⟨st2, e2, h2⟩ := C70_coo_independent wgt (ops ++ [.assign i j junk])
  refine ⟨st, st1, st2, e, e1, e2, ?_, ?_⟩
  · intro hi hj
    have hi' := h i
    have hj' := h j
    rw [h1, vrun_append]
    obtain ⟨o, ho⟩ := Option.isSome_iff_exists.mp hj
    rw [ho, Option.map_some] at hj'
    rw [hi, Option.map_none] at hi'
    simp [vrun, vstep, ← hi', ← hj', ho, Vals.set]
  · intro hi hj
    have hi' := h i
    have hj' := h j
    rw [h2, vrun_append]
    obtain ⟨o, ho⟩ := Option.isSome_iff_exists.mp hj
    obtain ⟨o', ho'⟩ := Option.isSome_iff_exists.mp hi
    rw [ho, Option.map_some] at hj'
    rw [ho', Option.map_some] at hi'
    simp [vrun, vstep, ← hi', ← hj', ho, Vals.set]

/-! ## C73: no leaks -/

theorem no_leak {K : Kind} (hK : K.Good) (ops : List Op) (ht : Tidy K ops (fun _ => none)) :
    ∃ st, run K ops State.init = .ok st ∧
      ∀ a b, st.heap.mem a = some b → b ≠ [] → ∃ i k, Owns st i k (some a) := by
  obtain ⟨st, e, I⟩ := run_inv hK ops (Inv.init K True) (fun _ => ht)
  refine ⟨st, e, fun a b hab hb => ?_⟩
  obtain ⟨i, o, ho, hm, hin⟩ := I.own trivial a b hab hb
  obtain ⟨k, hk, hk'⟩ := List.getElem_of_mem hin
  exact ⟨i, k, o, ho, hm, by rw [List.getElem?_eq_getElem hk, hk']⟩

/-- C73: in a history that frees every COO before the end of its lifetime, every allocated block that has elements belongs to
an object that exists and has entries: assignments and frees release the storage they replace. -/
theorem C73_coo_no_leak (wgt : Bool) (ops : List Op) (ht : Tidy (cooKind wgt) ops (fun _ => none)) :
    ∃ st, run (cooKind wgt) ops State.init = .ok st ∧
      ∀ a b, st.heap.mem a = some b → b ≠ [] → ∃ i k, Owns st i k (some a) :=
  no_leak (cooKind_good wgt) ops ht

/-- C73: the same for Tensor objects. -/
theorem C73_tensor_no_leak (wgt : Bool) (ops : List Op) (ht : Tidy (tensorKind wgt) ops (fun _ => none)) :
    ∃ st, run (tensorKind wgt) ops State.init = .ok st ∧
      ∀ a b, st.heap.mem a = some b → b ≠ [] → ∃ i k, Owns st i k (some a) :=
  no_leak (tensorKind_good wgt) ops ht

/-- C73: once all objects are freed, nothing with elements is allocated. -/
theorem C73_all_freed (wgt : Bool) (ops : List Op) (ht : Tidy (cooKind wgt) ops (fun _ => none))
    (hall : ∀ i v, vrun (cooKind wgt) ops (fun _ => none) i = some v → v.m = 0) :
    ∃ st, run (cooKind wgt) ops State.init = .ok st ∧ ∀ a b, st.heap.mem a = some b → b = [] := by
  obtain ⟨st, e, h⟩ := C73_coo_no_leak wgt ops ht
  obtain ⟨st', e', h'⟩ := C70_coo_independent wgt ops
  obtain rfl : st = st' := by simpa [e] using e'
  refine ⟨st, e, fun a b hab => ?_⟩
  by_contra hb
  obtain ⟨i, k, o, ho, hm, _⟩ := h a b hab hb
  have := hall i (value st.heap o) (by rw [← h' i, ho]; rfl)
  simp only [value] at this
  omega

/-- C73: not even an empty block would be allocated if `free` released the storage of objects without entries; it does not
(`if (m_ > 0)`): the blocks of every COO with `m = 0` that was read from a file or constructed with a size stay allocated
forever, whatever the program does afterwards to that COO (here: `free()`). -/
theorem C73_empty_blocks_kept (wgt : Bool) (dims : List Nat) :
    ∃ st, run (cooKind wgt) [.construct 0 ⟨(if wgt then [[], [], []] else [[], []]), dims, 0⟩, .free 0] State.init = .ok st ∧
      st.heap.mem 0 = some [] := by
  cases wgt
  · exact ⟨_, rfl, rfl⟩
  · exact ⟨_, rfl, rfl⟩

/-- The concrete history: its result. Object 2 is a transposed and edited copy of object 0; object 0, freed and assigned again,
has the contents object 2 had before. -/
example : vrun (cooKind false) exHistory (fun _ => none) 0 = some ⟨[[1, 2, 3], [99, 5, 6]], [7, 4, 7], 3⟩ ∧
    vrun (cooKind false) exHistory (fun _ => none) 1 = none ∧
    vrun (cooKind false) exHistory (fun _ => none) 2 = some ⟨[[4, 42, 6], [1, 2, 3]], [7, 4, 7], 3⟩ ∧
    vrun (cooKind false) exHistory (fun _ => none) 3 = some ⟨[[], []], [0, 0, 0], 0⟩ := by decide

/-- The concrete history meets the hypothesis of C73 (it destroys object 1 after freeing it). -/
example : Tidy (cooKind false) exHistory (fun _ => none) :=
  ⟨trivial, trivial, trivial, trivial, trivial, trivial, trivial, trivial, trivial, trivial, trivial, trivial, trivial, trivial,
    trivial, by intro v hv; have : v = ⟨[[], []], [7, 4, 7], 0⟩ := (Option.some.inj hv).symm; rw [this], trivial, trivial⟩

/-- A history with freed memory read is a fault in the model: the pointers are not checked by the objects. -/
example : copyAll [some 0] [some 1] [1] ⟨2, fun a => if a = 0 then some [5] else none⟩ = .error .badAccess := by rfl

end Pigo.Life
