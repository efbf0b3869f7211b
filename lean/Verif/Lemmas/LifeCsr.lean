import Verif.Model.LifeCsr
import Verif.Lemmas.Life

/-! # The heap of a history of CSR operations -/

namespace Pigo.LifeCsr

open Pigo.Life

/-- The pointers `free()` releases. -/
def ptrs (wgt : Bool) (o : CObj) : List (Option Nat) := o.endpoints :: o.offsets :: if wgt then [o.weights] else []

theorem cfree_eq (wgt : Bool) (o : CObj) (h : Heap) : cfree wgt o h = freeAll (ptrs wgt o) h := by
  cases wgt
  · simp only [cfree, ptrs, freeAll, Bool.false_eq_true, if_false]
  · simp only [cfree, ptrs, freeAll, if_true]
    cases h.free o.endpoints with
    | error e => rfl
    | ok h1 =>
      simp only [bind, Except.bind]
      cases h1.free o.offsets with
      | error e => rfl
      | ok h2 =>
        simp only
        cases h2.free o.weights <;> rfl

theorem free_error {h : Heap} {p : Option Nat} {e : HFault} (he : h.free p = .error e) : e = .badFree := by
  cases p with
  | none => simp only [Heap.free, Except.error.injEq] at he; exact he.symm
  | some p =>
    simp only [Heap.free] at he
    cases hm : h.mem p with
    | none => rw [hm] at he; simp only [Except.error.injEq] at he; exact he.symm
    | some b => rw [hm] at he; simp at he

theorem freeAll_error : ∀ (ps : List (Option Nat)) {h : Heap} {e : HFault}, freeAll ps h = .error e → e = .badFree
  | [], h, e, he => by simp [freeAll] at he
  | p :: ps, h, e, he => by
    simp only [freeAll] at he
    cases hp : h.free p with
    | error e' =>
      rw [hp] at he
      have : e' = e := by simpa [bind, Except.bind] using he
      rw [← this]; exact free_error hp
    | ok h1 => rw [hp] at he; exact freeAll_error ps he

theorem free_ok {h h' : Heap} {p : Option Nat} (he : h.free p = .ok h') :
    ∃ q, p = some q ∧ h' = { h with mem := fun a => if a = q then none else h.mem a } := by
  cases p with
  | none => simp [Heap.free] at he
  | some p =>
    simp only [Heap.free] at he
    cases hm : h.mem p with
    | none => rw [hm] at he; simp at he
    | some b =>
      rw [hm] at he
      simp only [Except.ok.injEq] at he
      exact ⟨p, rfl, he.symm⟩

/-- Freeing never makes a freed block allocated. -/
theorem freeAll_mono : ∀ (ps : List (Option Nat)) {h h' : Heap} {a : Nat}, freeAll ps h = .ok h' → h.mem a = none → h'.mem a = none
  | [], h, h', a, he, hn => by simp only [freeAll, Except.ok.injEq] at he; rw [← he]; exact hn
  | p :: ps, h, h', a, he, hn => by
    simp only [freeAll] at he
    cases hp : h.free p with
    | error e' => rw [hp] at he; simp [bind, Except.bind] at he
    | ok h1 =>
      rw [hp] at he
      obtain ⟨q, _, rfl⟩ := free_ok hp
      refine freeAll_mono ps he ?_
      simp only
      split
      · rfl
      · exact hn

/-- Freeing the same pointers again is a fault, whatever happened to the heap before. -/
theorem freeAll_twice (p : Option Nat) (ps : List (Option Nat)) (h : Heap) :
    (freeAll (p :: ps) h >>= fun h => freeAll (p :: ps) h) = .error .badFree := by
  cases he : freeAll (p :: ps) h with
  | error e => rw [freeAll_error _ he]; rfl
  | ok h' =>
    simp only [bind, Except.bind]
    simp only [freeAll] at he ⊢
    cases hp : h.free p with
    | error e' => rw [hp] at he; simp [bind, Except.bind] at he
    | ok h1 =>
      rw [hp] at he
      obtain ⟨q, rfl, rfl⟩ := free_ok hp
      have hn : h'.mem q = none := freeAll_mono ps he (by simp)
      simp [Heap.free, hn, bind, Except.bind]

theorem cfree_twice (wgt : Bool) (o : CObj) (h : Heap) :
    (cfree wgt o h >>= fun h => cfree wgt o h) = .error .badFree := by
  rw [cfree_eq]
  have : (fun h => cfree wgt o h) = fun h => freeAll (ptrs wgt o) h := by funext h; exact cfree_eq wgt o h
  rw [this]
  exact freeAll_twice _ _ _

theorem callocate_eq (wgt : Bool) (n m : Nat) (h : Heap) :
    ∃ r, r = allocAll (fun _ _ => 0) (if wgt then [m, m, n + 1] else [m, n + 1]) h ∧
      (ptrs wgt (callocate wgt n m h).1).Perm r.1 ∧ (callocate wgt n m h).2 = r.2 := by
  cases wgt
  · exact ⟨_, rfl, .refl _, rfl⟩
  · exact ⟨_, rfl, (List.Perm.swap _ _ _).cons _, rfl⟩

theorem callocate_spec (wgt : Bool) (n m : Nat) (h : Heap) (hf : Fresh h) :
    (ptrs wgt (callocate wgt n m h).1).Nodup ∧
    (∀ p ∈ ptrs wgt (callocate wgt n m h).1, ∃ a, p = some a ∧ h.next ≤ a ∧ a < (callocate wgt n m h).2.next) ∧
    (∀ p ∈ ptrs wgt (callocate wgt n m h).1, (p.bind (callocate wgt n m h).2.mem).isSome) ∧
    (∀ a, some a ∉ ptrs wgt (callocate wgt n m h).1 → (callocate wgt n m h).2.mem a = h.mem a) ∧
    Fresh (callocate wgt n m h).2 ∧ h.next ≤ (callocate wgt n m h).2.next := by
  obtain ⟨r, hr, hp, hh⟩ := callocate_eq wgt n m h
  obtain ⟨h1, h2, h3, h4, h5⟩ := allocAll_spec (fun _ _ => 0) (if wgt then [m, m, n + 1] else [m, n + 1]) h hf
  rw [← hr] at h1 h2 h3 h4 h5
  rw [hh]
  have hin : ∀ p, p ∈ ptrs wgt (callocate wgt n m h).1 ↔ p ∈ r.1 := fun p => hp.mem_iff
  refine ⟨?_, ?_, ?_, ?_, h3, by omega⟩
  · rw [hp.nodup_iff, h1, List.Nodup, List.pairwise_map]
    exact List.Pairwise.imp (fun hne hc => hne (Option.some.inj hc)) (List.nodup_range' (step := 1))
  · intro p hp'
    rw [hin, h1] at hp'
    obtain ⟨a, ha, rfl⟩ := List.mem_map.mp hp'
    have := List.mem_range'_1.mp ha
    exact ⟨a, rfl, this.1, by omega⟩
  · intro p hp'
    rw [hin] at hp'
    have : (p.bind r.2.mem).map List.length ∈ r.1.map (fun p => (p.bind r.2.mem).map List.length) :=
      List.mem_map.mpr ⟨p, hp', rfl⟩
    rw [h5] at this
    obtain ⟨l, _, hl⟩ := List.mem_map.mp this
    cases hc : p.bind r.2.mem with
    | none => rw [hc] at hl; simp at hl
    | some b => rfl
  · intro a ha
    rw [hin, h1] at ha
    by_cases hlt : a < h.next
    · exact h4 a hlt
    · rw [hf a (by omega)]
      refine h3 a ?_
      rw [h2]
      by_contra hc
      exact ha (List.mem_map.mpr ⟨a, List.mem_range'_1.mpr ⟨by omega, by omega⟩, rfl⟩)

/-! ## Histories in which every CSR is freed at most once and never copied -/

/-- Every name is constructed once and freed at most once, after its construction; no copies.  `used`: names constructed so far,
`live`: those not yet freed. -/
def Once : List COp → List Nat → List Nat → Prop
  | [], _, _ => True
  | .construct i _ _ :: ops, used, live => i ∉ used ∧ Once ops (i :: used) (i :: live)
  | .free i :: ops, used, live => i ∈ live ∧ Once ops used (live.filter (· ≠ i))
  | _ :: _, _, _ => False

/-- The names constructed and not freed. -/
def liveAfter : List COp → List Nat → List Nat
  | [], live => live
  | .construct i _ _ :: ops, live => liveAfter ops (i :: live)
  | .free i :: ops, live => liveAfter ops (live.filter (· ≠ i))
  | _ :: ops, live => liveAfter ops live

structure CInv (wgt : Bool) (names alive : List Nat) (st : CState) : Prop where
  fresh : Fresh st.heap
  used : ∀ i, i ∉ names → st.objs i = none
  live : ∀ i ∈ alive, ∃ o, st.objs i = some o ∧ (ptrs wgt o).Nodup ∧ ∀ p ∈ ptrs wgt o, (p.bind st.heap.mem).isSome
  sep : ∀ i ∈ alive, ∀ j ∈ alive, i ≠ j → ∀ oi oj, st.objs i = some oi → st.objs j = some oj → ∀ p ∈ ptrs wgt oi, p ∉ ptrs wgt oj
  own : ∀ a, (st.heap.mem a).isSome → ∃ i ∈ alive, ∃ o, st.objs i = some o ∧ some a ∈ ptrs wgt o
  sub : ∀ i ∈ alive, i ∈ names

theorem CInv.init (wgt : Bool) : CInv wgt [] [] CState.init :=
  ⟨fun _ _ => rfl, fun _ _ => rfl, fun _ h => by simp at h, fun _ h => by simp at h, fun _ h => by simp [CState.init, Heap.empty] at h,
    fun _ h => by simp at h⟩

theorem CInv.construct {wgt : Bool} {used live : List Nat} {st : CState} (I : CInv wgt used live st) (i n m : Nat) (hi : i ∉ used) :
    CInv wgt (i :: used) (i :: live) (st.set i (some (callocate wgt n m st.heap).1) (callocate wgt n m st.heap).2) := by
  obtain ⟨h1, h2, h3, h4, h5, h6⟩ := callocate_spec wgt n m st.heap I.fresh
  have hne : ∀ j ∈ live, j ≠ i := by rintro j hj rfl; exact hi (I.sub j hj)
  have hold : ∀ j ∈ live, ∀ o, st.objs j = some o → ∀ p ∈ ptrs wgt o, p ∉ ptrs wgt (callocate wgt n m st.heap).1 := by
    intro j hj o ho p hp hp'
    obtain ⟨a, rfl, ha, _⟩ := h2 p hp'
    obtain ⟨o', ho', _, hl⟩ := I.live j hj
    obtain rfl := Option.some.inj (ho.symm.trans ho')
    obtain ⟨b, hb⟩ := Option.isSome_iff_exists.mp (hl _ hp)
    have := I.fresh.lt hb
    omega
  refine ⟨h5, ?_, ?_, ?_, ?_, ?_⟩
  · intro j hj
    simp only [List.mem_cons, not_or] at hj
    simp only [CState.set, if_neg hj.1]
    exact I.used j hj.2
  · intro j hj
    by_cases hji : j = i
    · exact ⟨_, by simp [CState.set, hji], h1, h3⟩
    · have hjl : j ∈ live := by simpa [hji] using hj
      obtain ⟨o, ho, hn, hl⟩ := I.live j hjl
      refine ⟨o, by simp [CState.set, hji, ho], hn, fun p hp => ?_⟩
      have := hold j hjl o ho p hp
      have hl' := hl p hp
      cases p with
      | none => simp at hl'
      | some a =>
        simp only [CState.set, Option.bind_some]
        rw [h4 a this]; exact hl'
  · intro a ha b hb hab oa ob hoa hob p hp hp'
    simp only [CState.set] at hoa hob
    by_cases hai : a = i
    · rw [if_pos hai] at hoa
      obtain rfl := Option.some.inj hoa
      have hbi : b ≠ i := by omega
      rw [if_neg hbi] at hob
      exact hold b (by simpa [hbi] using hb) ob hob p hp' hp
    · rw [if_neg hai] at hoa
      have hal : a ∈ live := by simpa [hai] using ha
      by_cases hbi : b = i
      · rw [if_pos hbi] at hob
        obtain rfl := Option.some.inj hob
        exact hold a hal oa hoa p hp hp'
      · rw [if_neg hbi] at hob
        exact I.sep a hal b (by simpa [hbi] using hb) hab oa ob hoa hob p hp hp'
  · intro a ha
    by_cases hin : some a ∈ ptrs wgt (callocate wgt n m st.heap).1
    · exact ⟨i, by simp, _, by simp [CState.set], hin⟩
    · simp only [CState.set] at ha
      rw [h4 a hin] at ha
      obtain ⟨j, hj, o, ho, hp⟩ := I.own a ha
      exact ⟨j, by simp [hj], o, by simp [CState.set, hne j hj, ho], hp⟩
  · intro j hj
    rcases List.mem_cons.mp hj with h | h
    · simp [h]
    · simp [I.sub j h]

theorem CInv.free {wgt : Bool} {used live : List Nat} {st : CState} (I : CInv wgt used live st) (i : Nat) (hi : i ∈ live) :
    ∃ o h, st.objs i = some o ∧ cfree wgt o st.heap = .ok h ∧ CInv wgt used (live.filter (· ≠ i)) (st.set i (some o) h) := by
  obtain ⟨o, ho, hn, hl⟩ := I.live i hi
  obtain ⟨h, e1, e2, e3⟩ := freeAll_spec (ptrs wgt o) st.heap hn hl
  refine ⟨o, h, ho, by rw [cfree_eq, e1], ?_⟩
  have hset : ∀ j, (st.set i (some o) h).objs j = st.objs j := by
    intro j
    simp only [CState.set]
    split
    · rename_i hc; rw [hc, ho]
    · rfl
  refine ⟨?_, ?_, ?_, ?_, ?_, ?_⟩
  · intro a ha
    simp only [CState.set] at ha ⊢
    rw [e3]
    split
    · rfl
    · exact I.fresh a (by omega)
  · intro j hj
    rw [hset]; exact I.used j hj
  · intro j hj
    have hj := List.mem_filter.mp hj
    have hji : j ≠ i := by simpa using hj.2
    obtain ⟨oj, hoj, hnj, hlj⟩ := I.live j hj.1
    refine ⟨oj, by rw [hset]; exact hoj, hnj, fun p hp => ?_⟩
    have := I.sep j hj.1 i hi hji oj o hoj ho p hp
    have hl' := hlj p hp
    cases p with
    | none => simp at hl'
    | some a =>
      simp only [CState.set, Option.bind_some]
      rw [e3, if_neg this]; exact hl'
  · intro a ha b hb hab oa ob hoa hob
    rw [hset] at hoa hob
    exact I.sep a (List.mem_filter.mp ha).1 b (List.mem_filter.mp hb).1 hab oa ob hoa hob
  · intro a ha
    simp only [CState.set] at ha
    rw [e3] at ha
    split at ha
    · simp at ha
    · rename_i hn'
      obtain ⟨j, hj, oj, hoj, hp⟩ := I.own a ha
      refine ⟨j, List.mem_filter.mpr ⟨hj, ?_⟩, oj, by rw [hset]; exact hoj, hp⟩
      have : j ≠ i := by
        rintro rfl
        obtain rfl := Option.some.inj (ho.symm.trans hoj)
        exact hn' hp
      simpa using this
  · intro j hj
    exact I.sub j (List.mem_filter.mp hj).1

theorem crun_once {wgt : Bool} : ∀ (ops : List COp) {used live : List Nat} {st : CState}, CInv wgt used live st → Once ops used live →
    ∃ st' used', crun wgt ops st = .ok st' ∧ CInv wgt used' (liveAfter ops live) st'
  | [], used, live, st, I, _ => ⟨st, used, rfl, I⟩
  | .construct i n m :: ops, used, live, st, I, ho => by
    obtain ⟨st', used', e, I'⟩ := crun_once ops (I.construct i n m ho.1) ho.2
    refine ⟨st', used', ?_, I'⟩
    show (cstep wgt (.construct i n m) st >>= fun st => crun wgt ops st) = _
    rw [cstep, I.used i ho.1]; exact e
  | .free i :: ops, used, live, st, I, ho => by
    obtain ⟨o, h, h1, h2, I1⟩ := I.free i ho.1
    obtain ⟨st', used', e, I'⟩ := crun_once ops I1 ho.2
    refine ⟨st', used', ?_, I'⟩
    show (cstep wgt (.free i) st >>= fun st => crun wgt ops st) = _
    rw [cstep, h1]
    simp only [h2]
    exact e
  | .default _ :: _, _, _, _, _, ho => by simp [Once] at ho
  | .copy _ _ :: _, _, _, _, _, ho => by simp [Once] at ho
  | .destroy _ :: _, _, _, _, _, ho => by simp [Once] at ho

/-! ## DiGraph and Matrix -/

theorem freeObj_pos {K : Kind} {o : Obj} {h : Heap} (hm : 0 < o.m) (hn : o.arrs.Nodup) (hl : ∀ p ∈ o.arrs, (p.bind h.mem).isSome) :
    ∃ o' h', freeObj K o h = .ok (o', h') ∧ h'.next = h.next ∧ ∀ a, h'.mem a = if some a ∈ o.arrs then none else h.mem a := by
  obtain ⟨h', e1, e2, e3⟩ := freeAll_spec o.arrs h hn hl
  exact ⟨_, h', by simp only [freeObj, gt_iff_lt, hm, if_true, e1]; rfl, e2, e3⟩

/-- Construction from a file and `free()` of the two CSRs: the heap is as before. -/
theorem pair_spec (wgt : Bool) (junk : Nat → Nat → Nat) (v : Val) (n n' : Nat) (h : Heap) (hf : Fresh h)
    (hl : v.arrs.map List.length = (cooKind wgt).lens v.dims v.m) :
    ∃ a b h1 h2, pairFromFile wgt junk v n n' h = .ok (a, b, h1) ∧ freePair wgt a b h1 = .ok h2 ∧
      (∀ q, some q ∉ ptrs wgt a → some q ∉ ptrs wgt b → 0 < v.m → h1.mem q = h.mem q) ∧
      (∀ q, 0 < v.m → h2.mem q = h.mem q) ∧
      (∀ q blk, h.mem q = some blk → h2.mem q = some blk) ∧ (∀ q blk, h2.mem q = some blk → blk = [] ∨ h.mem q = some blk) := by
  -- the COO
  obtain ⟨a1, a2, a3, a4, a5⟩ := allocAll_spec junk ((cooKind wgt).lens v.dims v.m) h hf
  rw [← hl] at a1 a2 a3 a4 a5
  set C := allocAll junk (v.arrs.map List.length) h with hC
  have hCnd : C.1.Nodup := by
    rw [a1, List.Nodup, List.pairwise_map]
    exact List.Pairwise.imp (fun hne hc => hne (Option.some.inj hc)) (List.nodup_range' (step := 1))
  have hCr : ∀ q, some q ∈ C.1 ↔ h.next ≤ q ∧ q < C.2.next := by
    intro q
    rw [a1]
    constructor
    · intro hq
      obtain ⟨k, hk, e⟩ := List.mem_map.mp hq
      obtain rfl := Option.some.inj e
      have := List.mem_range'_1.mp hk
      omega
    · intro hq
      exact List.mem_map.mpr ⟨q, List.mem_range'_1.mpr ⟨hq.1, by omega⟩, rfl⟩
  have hCnone : none ∉ C.1 := by rw [a1]; simp
  rw [List.map_map] at a5
  obtain ⟨h1, b1, b2, b3, b4⟩ := fillAll_spec v.arrs C.1 C.2 hCnd a5
  have hf1 : Fresh h1 := by
    intro q hq
    rw [b3 q (by rw [hCr]; omega)]
    exact a3 q (by omega)
  have h1out : ∀ q, some q ∉ C.1 → h1.mem q = h.mem q := by
    intro q hq
    rw [b3 q hq]
    by_cases hlt : q < h.next
    · exact a4 q hlt
    · rw [hf q (by omega)]
      exact a3 q (by by_contra hc; exact hq ((hCr q).mpr ⟨by omega, by omega⟩))
  have rC : Rep (cooKind wgt) h1 ⟨C.1, v.dims, v.m⟩ v := ⟨rfl, rfl, hl, by rw [a1]; simp, fun _ => b4⟩
  -- the copy
  obtain ⟨o, h2, c1, c2, c3, c4, c5, c6, c7, c8, c9, c10, c11, c12⟩ :=
    copyObj_spec (cooKind_good wgt) junk ⟨C.1, v.dims, v.m⟩ v h1 hf1 rC
  simp only at c9
  -- the first CSR
  obtain ⟨d1, d2, d3, d4, d5, d6⟩ := callocate_spec wgt n o.m h2 c2
  set F := callocate wgt n o.m h2 with hF
  -- free the copy
  obtain ⟨o', h4, e1, e2, e3⟩ : ∃ o' h4, freeObj (cooKind wgt) { o with arrs := swap01 o.arrs } F.2 = .ok (o', h4) ∧
      h4.next = F.2.next ∧ ∀ q, h4.mem q = if 0 < v.m ∧ some q ∈ o.arrs then none else F.2.mem q := by
    by_cases hm : 0 < v.m
    · obtain ⟨o', h4, e1, e2, e3⟩ := freeObj_pos (K := cooKind wgt) (o := { o with arrs := swap01 o.arrs }) (h := F.2)
        (by simp only; omega) ((swap01_perm _).nodup_iff.mpr c4) (by
          intro p hp
          simp only at hp
          rw [(swap01_perm _).mem_iff] at hp
          have := c3.isSome (by omega) p hp
          cases p with
          | none => simp at this
          | some q =>
            simp only [Option.bind_some] at this ⊢
            rw [d4 q (fun hc => by
              obtain ⟨a, ha, h1, h2⟩ := d2 _ hc
              obtain rfl := Option.some.inj ha
              have := c11 q hp; omega)]
            exact this)
      refine ⟨o', h4, e1, e2, fun q => ?_⟩
      rw [e3]
      simp only [(swap01_perm o.arrs).mem_iff, hm, true_and]
    · refine ⟨{ o with arrs := swap01 o.arrs }, F.2, by simp only [freeObj, gt_iff_lt, show ¬ 0 < o.m by omega, if_false], rfl, fun q => ?_⟩
      rw [if_neg (fun hc => hm hc.1)]
  have hf4 : Fresh h4 := by
    intro q hq
    rw [e3]
    split
    · rfl
    · exact d5 q (by omega)
  -- the second CSR
  obtain ⟨f1, f2, f3, f4, f5, f6⟩ := callocate_spec wgt n' v.m h4 hf4
  set G := callocate wgt n' v.m h4 with hG
  have hFr : ∀ q, some q ∈ ptrs wgt F.1 → h2.next ≤ q ∧ q < F.2.next := by
    intro q hq
    obtain ⟨a, ha, x, y⟩ := d2 _ hq
    obtain rfl := Option.some.inj ha
    exact ⟨x, y⟩
  have hGr : ∀ q, some q ∈ ptrs wgt G.1 → h4.next ≤ q ∧ q < G.2.next := by
    intro q hq
    obtain ⟨a, ha, x, y⟩ := f2 _ hq
    obtain rfl := Option.some.inj ha
    exact ⟨x, y⟩
  have hnextC : h.next ≤ C.2.next := by omega
  -- free the COO
  obtain ⟨o'', h6, g1, g2, g3⟩ : ∃ o' h6, freeObj (cooKind wgt) ⟨C.1, v.dims, v.m⟩ G.2 = .ok (o', h6) ∧
      h6.next = G.2.next ∧ ∀ q, h6.mem q = if 0 < v.m ∧ some q ∈ C.1 then none else G.2.mem q := by
    by_cases hm : 0 < v.m
    · obtain ⟨o', h6, g1, g2, g3⟩ := freeObj_pos (K := cooKind wgt) (o := ⟨C.1, v.dims, v.m⟩) (h := G.2) hm hCnd (by
          intro p hp
          have := rC.isSome hm p hp
          cases p with
          | none => simp at this
          | some q =>
            have hq := (hCr q).mp hp
            simp only [Option.bind_some] at this ⊢
            rw [f4 q (fun hc => by have := hGr q hc; omega), e3, if_neg (fun hc => by have := c6 q hc.2; omega),
              d4 q (fun hc => by have := hFr q hc; omega), c12 q (fun hc => by have := c6 q hc; omega)]
            exact this)
      exact ⟨o', h6, g1, g2, fun q => by rw [g3]; simp [hm]⟩
    · exact ⟨⟨C.1, v.dims, v.m⟩, G.2, by simp only [freeObj, gt_iff_lt, hm, if_false], rfl, fun q => by rw [if_neg (fun hc => hm hc.1)]⟩
  -- free both
  obtain ⟨h7, k1, k2, k3⟩ := freeAll_spec (ptrs wgt F.1) h6 d1 (by
    intro p hp
    have := d3 p hp
    cases p with
    | none => simp at this
    | some q =>
      have hq := hFr q hp
      simp only [Option.bind_some] at this ⊢
      rw [g3, if_neg (fun hc => by have := (hCr q).mp hc.2; omega), f4 q (fun hc => by have := hGr q hc; omega), e3,
        if_neg (fun hc => by have := c11 q hc.2; omega)]
      exact this)
  obtain ⟨h8, l1, l2, l3⟩ := freeAll_spec (ptrs wgt G.1) h7 f1 (by
    intro p hp
    have := f3 p hp
    cases p with
    | none => simp at this
    | some q =>
      have hq := hGr q hp
      simp only [Option.bind_some] at this ⊢
      rw [k3, if_neg (fun hc => by have := hFr q hc; omega), g3, if_neg (fun hc => by have := (hCr q).mp hc.2; omega)]
      exact this)
  have h6pos : ∀ q, some q ∉ ptrs wgt F.1 → some q ∉ ptrs wgt G.1 → h6.mem q =
      if 0 < v.m ∧ (some q ∈ C.1 ∨ some q ∈ o.arrs) then none else h2.mem q := by
    intro q hqF hqG
    rw [g3, f4 q hqG, e3, d4 q hqF]
    by_cases hm : 0 < v.m <;> by_cases x : some q ∈ C.1 <;> by_cases y : some q ∈ o.arrs <;> simp [hm, x, y]
  have h6m : ∀ q, some q ∉ ptrs wgt F.1 → some q ∉ ptrs wgt G.1 → 0 < v.m → h6.mem q = h.mem q := by
    intro q hqF hqG hm
    rw [h6pos q hqF hqG]
    split
    · rename_i hc
      refine (hf q ?_).symm
      rcases hc.2 with hc | hc
      · exact ((hCr q).mp hc).1
      · have := c6 q hc; omega
    · rename_i hc
      have hq : some q ∉ C.1 ∧ some q ∉ o.arrs := ⟨fun x => hc ⟨hm, .inl x⟩, fun x => hc ⟨hm, .inr x⟩⟩
      rw [c12 q hq.2, h1out q hq.1]
  have h8eq : ∀ q, h8.mem q = if some q ∈ ptrs wgt F.1 ∨ some q ∈ ptrs wgt G.1 then none else h6.mem q := by
    intro q
    rw [l3, k3]
    by_cases x : some q ∈ ptrs wgt F.1 <;> by_cases y : some q ∈ ptrs wgt G.1 <;> simp [x, y]
  refine ⟨F.1, G.1, h6, h8, ?_, ?_, h6m, ?_, ?_, ?_⟩
  · simp only [pairFromFile, ← hl, ← hC, b1, buildPair]
    simp only [bind, Except.bind, c1, ← hF, e1, ← hG, g1]
  · simp only [freePair, cfree_eq, k1, bind, Except.bind, l1]
  · intro q hm
    rw [h8eq]
    split
    · rename_i hc
      refine (hf q ?_).symm
      rcases hc with hc | hc
      · have := hFr q hc; omega
      · have := hGr q hc; omega
    · rename_i hc
      exact h6m q (fun x => hc (.inl x)) (fun x => hc (.inr x)) hm
  · intro q blk hq
    have hlt := hf.lt hq
    rw [h8eq, if_neg (fun hc => by rcases hc with hc | hc; have := hFr q hc; omega; have := hGr q hc; omega),
      h6pos q (fun hc => by have := hFr q hc; omega) (fun hc => by have := hGr q hc; omega),
      if_neg (fun hc => by rcases hc.2 with hc | hc; have := (hCr q).mp hc; omega; have := c6 q hc; omega),
      c12 q (fun hc => by have := c6 q hc; omega), h1out q (fun hc => by have := (hCr q).mp hc; omega)]
    exact hq
  · intro q blk hq
    rw [h8eq] at hq
    split at hq
    · simp at hq
    · rename_i hc
      rw [h6pos q (fun x => hc (.inl x)) (fun x => hc (.inr x))] at hq
      split at hq
      · simp at hq
      · rename_i hnc
        by_cases hb : blk = []
        · exact .inl hb
        · right
          rcases c8 q blk hq hb with hx | hx
          · exact absurd ⟨by omega, .inr hx.2⟩ hnc
          · by_cases hC' : some q ∈ C.1
            · exfalso
              have hm : ¬ 0 < v.m := by
                intro hm
                exact hnc ⟨hm, .inl hC'⟩
              have hz := (cooKind_good wgt).zero v.dims
              have hl' := hl
              rw [show v.m = 0 by omega] at hl'
              rw [← hl'] at hz
              have : some blk ∈ v.arrs.map some := by
                rw [← b4]; exact List.mem_map.mpr ⟨some q, hC', hx⟩
              obtain ⟨b', hb', e⟩ := List.mem_map.mp this
              obtain rfl := Option.some.inj e
              exact hb (List.length_eq_zero_iff.mp (hz _ (List.mem_map.mpr ⟨b', hb', rfl⟩)))
            · rw [h1out q hC'] at hx; exact hx

theorem crun_append (wgt : Bool) : ∀ (ops ops' : List COp) (st : CState),
    crun wgt (ops ++ ops') st = (crun wgt ops st >>= fun st => crun wgt ops' st)
  | [], _, _ => rfl
  | op :: ops, ops', st => by
    show (cstep wgt op st >>= fun st => crun wgt (ops ++ ops') st) = ((cstep wgt op st >>= fun st => crun wgt ops st) >>= _)
    cases cstep wgt op st with
    | error e => rfl
    | ok st1 => exact crun_append wgt ops ops' st1

end Pigo.LifeCsr
