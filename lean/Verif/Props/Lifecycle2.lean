import Verif.Lemmas.LifeCsr

/-!
# Life cycle of CSR, DiGraph and Matrix objects with raw pointer storage

C64, C74. `crun wgt ops CState.init` executes a history of constructions, copies and frees of CSR objects (`Model/LifeCsr`).
-/

namespace Pigo.LifeCsr

open Pigo.Life

/-! ## C64 -/

/-- C64 fails: whatever happened before, and whatever CSR `i` is (also an empty one), calling `i.free()` twice frees a pointer
that is not an allocated block. -/
theorem C64_free_twice_violated (wgt : Bool) (ops : List COp) (st : CState) (i : Nat) (o : CObj)
    (hrun : crun wgt ops CState.init = .ok st) (hi : st.objs i = some o) :
    crun wgt (ops ++ [.free i, .free i]) CState.init = .error .badFree := by
  rw [crun_append, hrun]
  show (cstep wgt (.free i) st >>= fun st => crun wgt [.free i] st) = _
  rw [cstep, hi]
  have h2 := cfree_twice wgt o st.heap
  cases he : cfree wgt o st.heap with
  | error e =>
    rw [cfree_eq] at he
    simp only [cfree_eq, he, freeAll_error _ he]; rfl
  | ok h =>
    rw [he] at h2
    have h2' : cfree wgt o h = .error .badFree := h2
    simp only [he]
    show (cstep wgt (.free i) (st.set i (some o) h) >>= fun st => crun wgt [] st) = _
    rw [cstep]
    simp only [CState.set, if_true]
    rw [h2']; rfl

/-- C64 fails: after copying a CSR, freeing both is a double free. -/
theorem C64_free_copy_violated (wgt : Bool) (ops : List COp) (st : CState) (i j : Nat) (o : CObj) (hij : j ≠ i)
    (hrun : crun wgt ops CState.init = .ok st) (hi : st.objs i = some o) :
    crun wgt (ops ++ [.copy j i, .free i, .free j]) CState.init = .error .badFree := by
  rw [crun_append, hrun]
  show (cstep wgt (.copy j i) st >>= fun st => crun wgt [.free i, .free j] st) = _
  rw [cstep, hi]
  show (cstep wgt (.free i) (st.set j (some o) st.heap) >>= fun st => crun wgt [.free j] st) = _
  rw [cstep]
  have hi' : (st.set j (some o) st.heap).objs i = some o := by simp [CState.set, hij.symm, hi]
  rw [hi']
  have h2 := cfree_twice wgt o st.heap
  have hh : (st.set j (some o) st.heap).heap = st.heap := rfl
  rw [hh]
  cases he : cfree wgt o st.heap with
  | error e =>
    rw [cfree_eq] at he
    simp only [cfree_eq, he, freeAll_error _ he]; rfl
  | ok h =>
    rw [he] at h2
    have h2' : cfree wgt o h = .error .badFree := h2
    simp only [he]
    show (cstep wgt (.free j) ((st.set j (some o) st.heap).set i (some o) h) >>= fun st => crun wgt [] st) = _
    rw [cstep]
    simp only [CState.set, hij, if_true, if_false]
    rw [h2']; rfl

/-- C64: a default-constructed CSR has no rows and no entries, and nothing is allocated for it. -/
theorem C64_default (wgt : Bool) (ops : List COp) (st : CState) (i : Nat) (hrun : crun wgt ops CState.init = .ok st) (hi : st.objs i = none) :
    ∃ st' o, crun wgt (ops ++ [.default i]) CState.init = .ok st' ∧ st'.heap = st.heap ∧ st'.objs i = some o ∧ o.n = 0 ∧ o.m = 0 := by
  refine ⟨st.set i (some ⟨none, none, none, 0, 0⟩) st.heap, ⟨none, none, none, 0, 0⟩, ?_, rfl, ?_, rfl, rfl⟩
  · rw [crun_append, hrun]
    show (cstep wgt (.default i) st >>= fun st => crun wgt [] st) = _
    rw [cstep, hi]
    rfl
  · simp [CState.set]

/-- C64 fails: `free()` of a default-constructed CSR frees an indeterminate pointer (a default-constructed COO may be freed,
C63). -/
theorem C64_free_default_violated (wgt : Bool) (ops : List COp) (st : CState) (i : Nat)
    (hrun : crun wgt ops CState.init = .ok st) (hi : st.objs i = none) :
    crun wgt (ops ++ [.default i, .free i]) CState.init = .error .badFree := by
  rw [crun_append, hrun]
  show (cstep wgt (.default i) st >>= fun st => crun wgt [.free i] st) = _
  rw [cstep, hi]
  show (cstep wgt (.free i) (st.set i _ st.heap) >>= fun st => crun wgt [] st) = _
  rw [cstep]
  simp only [CState.set, if_true]
  rfl

/-- C64, the part that holds: in a history without copies in which every CSR is freed at most once, nothing goes wrong, and the
allocated blocks are exactly those of the CSRs not yet freed: each `free()` releases the storage of its CSR, completely. -/
theorem C64_free_once_partial (wgt : Bool) (ops : List COp) (h : Once ops [] []) :
    ∃ st, crun wgt ops CState.init = .ok st ∧
      ∀ a, (st.heap.mem a).isSome ↔ ∃ i ∈ liveAfter ops [], ∃ o, st.objs i = some o ∧
        (o.endpoints = some a ∨ o.offsets = some a ∨ (wgt = true ∧ o.weights = some a)) := by
  obtain ⟨st, used, e, I⟩ := crun_once ops (CInv.init wgt) h
  have hp : ∀ (o : CObj) (a : Nat), some a ∈ ptrs wgt o ↔ (o.endpoints = some a ∨ o.offsets = some a ∨ (wgt = true ∧ o.weights = some a)) := by
    intro o a
    cases wgt <;> simp [ptrs, eq_comm]
  refine ⟨st, e, fun a => ⟨fun ha => ?_, fun ⟨i, hi, o, ho, hpo⟩ => ?_⟩⟩
  · obtain ⟨i, hi, o, ho, h'⟩ := I.own a ha
    exact ⟨i, hi, o, ho, (hp o a).mp h'⟩
  · obtain ⟨o', ho', _, hl⟩ := I.live i hi
    obtain rfl := Option.some.inj (ho.symm.trans ho')
    exact hl _ ((hp o a).mpr hpo)

/-- A history that meets the hypothesis, and what is left. -/
example : Once [.construct 0 4 7, .construct 1 0 0, .free 0, .construct 2 3 3, .free 2] [] [] ∧
    liveAfter [.construct 0 4 7, .construct 1 0 0, .free 0, .construct 2 3 3, .free 2] [] = [1] := by
  refine ⟨?_, by decide⟩
  simp [Once]

/-- The hypotheses of the violations hold after a construction. -/
example : ∃ st, crun true [.construct 0 4 7] CState.init = .ok st ∧ st.objs 0 = some ⟨some 0, some 1, some 2, 4, 7⟩ ∧ st.objs 1 = none :=
  ⟨_, rfl, rfl, rfl⟩

/-! ## C74: DiGraph and Matrix built from a file -/

/-- C74: building a DiGraph or Matrix from a file with at least one entry releases the temporary COO and its transposed copy:
only the storage of the two CSRs is added to the heap (whatever was allocated before). `free()` then releases exactly that:
the heap is as it was before. Nothing is freed twice or used after it was freed (the executions succeed). -/
theorem C74_pair_storage (wgt : Bool) (junk : Nat → Nat → Nat) (v : Val) (n n' : Nat) (h : Heap) (hf : Fresh h)
    (hl : v.arrs.map List.length = if wgt then [v.m, v.m, v.m] else [v.m, v.m]) (hm : 0 < v.m) :
    ∃ a b h1 h2, pairFromFile wgt junk v n n' h = .ok (a, b, h1) ∧ freePair wgt a b h1 = .ok h2 ∧
      (∀ q, h1.mem q ≠ h.mem q → ∃ c, (c = a ∨ c = b) ∧
        (c.endpoints = some q ∨ c.offsets = some q ∨ (wgt = true ∧ c.weights = some q))) ∧
      (∀ q, h2.mem q = h.mem q) := by
  obtain ⟨a, b, h1, h2, e1, e2, e3, e4, _, _⟩ := pair_spec wgt junk v n n' h hf (by cases wgt <;> simpa [cooKind] using hl)
  refine ⟨a, b, h1, h2, e1, e2, ?_, fun q => e4 q hm⟩
  intro q hq
  have hp : ∀ (o : CObj) (a : Nat), some a ∈ ptrs wgt o ↔ (o.endpoints = some a ∨ o.offsets = some a ∨ (wgt = true ∧ o.weights = some a)) := by
    intro o a
    cases wgt <;> simp [ptrs, eq_comm]
  by_cases ha : some q ∈ ptrs wgt a
  · exact ⟨a, .inl rfl, (hp a q).mp ha⟩
  · by_cases hb : some q ∈ ptrs wgt b
    · exact ⟨b, .inr rfl, (hp b q).mp hb⟩
    · exact absurd (e3 q ha hb hm) hq

/-- C74: for every file, also one without entries, what was allocated before stays as it is, and what is left allocated after
`free()` in addition has no elements. -/
theorem C74_pair_storage_any (wgt : Bool) (junk : Nat → Nat → Nat) (v : Val) (n n' : Nat) (h : Heap) (hf : Fresh h)
    (hl : v.arrs.map List.length = if wgt then [v.m, v.m, v.m] else [v.m, v.m]) :
    ∃ a b h1 h2, pairFromFile wgt junk v n n' h = .ok (a, b, h1) ∧ freePair wgt a b h1 = .ok h2 ∧
      (∀ q blk, h.mem q = some blk → h2.mem q = some blk) ∧ (∀ q blk, h2.mem q = some blk → blk = [] ∨ h.mem q = some blk) := by
  obtain ⟨a, b, h1, h2, e1, e2, _, _, e5, e6⟩ := pair_spec wgt junk v n n' h hf (by cases wgt <;> simpa [cooKind] using hl)
  exact ⟨a, b, h1, h2, e1, e2, e5, e6⟩

/-- Calling `free()` of a DiGraph or Matrix twice, or of one and its copy, is a double free, like for the CSRs in it. -/
theorem C64_pair_twice_violated (wgt : Bool) (a b : CObj) (h : Heap) :
    (freePair wgt a b h >>= fun h => freePair wgt a b h) = .error .badFree := by
  have key : ∀ h, (cfree wgt a h >>= fun h => cfree wgt b h >>= fun h => cfree wgt a h >>= fun h => cfree wgt b h) = .error .badFree := by
    intro h
    cases ha : cfree wgt a h with
    | error e => rw [cfree_eq] at ha; rw [freeAll_error _ ha]; rfl
    | ok h1 =>
      show (cfree wgt b h1 >>= fun h => cfree wgt a h >>= fun h => cfree wgt b h) = _
      cases hb : cfree wgt b h1 with
      | error e => rw [cfree_eq] at hb; rw [freeAll_error _ hb]; rfl
      | ok h2 =>
        show (cfree wgt a h2 >>= fun h => cfree wgt b h) = _
        rw [cfree_eq] at ha hb ⊢
        simp only [ptrs, freeAll] at ha
        cases hp : h.free a.endpoints with
        | error e' => rw [hp] at ha; simp [bind, Except.bind] at ha
        | ok h0 =>
          rw [hp] at ha
          obtain ⟨q, hq, rfl⟩ := free_ok hp
          have h1n : h1.mem q = none := freeAll_mono (a.offsets :: if wgt then [a.weights] else []) ha (by simp)
          have h2n : h2.mem q = none := freeAll_mono _ hb h1n
          have : freeAll (ptrs wgt a) h2 = .error .badFree := by
            simp only [ptrs, freeAll, hq, Heap.free, h2n]; rfl
          rw [this]; rfl
  have := key h
  simp only [freePair]
  cases ha : cfree wgt a h with
  | error e => rw [ha] at this; exact this
  | ok h1 => rw [ha] at this; exact this

/-- A file with two weighted entries, on a heap where address 0 is in use. -/
example : ∃ (v : Val) (h : Heap), v.m = 2 ∧ v.arrs.map List.length = [v.m, v.m, v.m] ∧ Fresh h ∧ h.mem 0 = some [3] :=
  ⟨⟨[[0, 1], [1, 0], [5, 6]], [2, 2, 2], 2⟩, ⟨1, fun a => if a = 0 then some [3] else none⟩, rfl, rfl,
    fun a ha => if_neg (by simp only at ha; omega), rfl⟩

end Pigo.LifeCsr
