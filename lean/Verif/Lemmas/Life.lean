import Verif.Spec.Life
import Mathlib.Tactic.ByContra
import Mathlib.Tactic.Set
import Mathlib.Logic.Basic

/-! # The heap of a history of COO/Tensor operations -/

namespace Pigo.Life

/-- What is needed of a kind of objects. -/
structure Kind.Good (K : Kind) : Prop where
  zero : ∀ d, ∀ l ∈ K.lens d 0, l = 0
  count : ∀ d d' m m', (K.lens d m).length = (K.lens d' m').length
  swap : K.swaps = true → ∀ d m, swap01 (K.lens d m) = K.lens d m

theorem cooKind_good (wgt : Bool) : (cooKind wgt).Good := by
  constructor
  · intro d l hl; cases wgt <;> simp_all [cooKind]
  · intro d d' m m'; cases wgt <;> simp [cooKind]
  · intro _ d m; cases wgt <;> simp [cooKind, swap01]

theorem tensorKind_good (wgt : Bool) : (tensorKind wgt).Good := by
  constructor
  · intro d l hl; cases wgt <;> simp_all [tensorKind]
  · intro d d' m m'; cases wgt <;> simp [tensorKind]
  · intro h; simp [tensorKind] at h

def Fresh (h : Heap) : Prop := ∀ a, h.next ≤ a → h.mem a = none

theorem Fresh.lt {h : Heap} (hf : Fresh h) {a : Nat} {b} (hm : h.mem a = some b) : a < h.next := by
  by_contra hc
  rw [hf a (by omega)] at hm; exact absurd hm (by simp)

theorem allocAll_spec (junk : Nat → Nat → Nat) : ∀ (lens : List Nat) (h : Heap), Fresh h →
    (allocAll junk lens h).1 = (List.range' h.next lens.length).map some ∧
    (allocAll junk lens h).2.next = h.next + lens.length ∧
    Fresh (allocAll junk lens h).2 ∧
    (∀ a < h.next, (allocAll junk lens h).2.mem a = h.mem a) ∧
    (allocAll junk lens h).1.map (fun p => (p.bind (allocAll junk lens h).2.mem).map List.length) = lens.map some
  | [], h, hf => by simp [allocAll, hf]
  | len :: lens, h, hf => by
    have hf' : Fresh (h.malloc (junk lens.length) len).2 := by
      intro a ha
      simp only [Heap.malloc] at ha ⊢
      rw [if_neg (by omega)]; exact hf a (by omega)
    obtain ⟨h1, h2, h3, h4, h5⟩ := allocAll_spec junk lens (h.malloc (junk lens.length) len).2 hf'
    have e : allocAll junk (len :: lens) h =
        (some h.next :: (allocAll junk lens (h.malloc (junk lens.length) len).2).1,
          (allocAll junk lens (h.malloc (junk lens.length) len).2).2) := rfl
    rw [e]
    have hn : (h.malloc (junk lens.length) len).2.next = h.next + 1 := rfl
    rw [hn] at h1 h2 h4
    refine ⟨?_, ?_, h3, ?_, ?_⟩
    · simp [h1, List.range'_succ]
    · simp [h2]; omega
    · intro a ha
      simp only
      rw [h4 a (by omega)]
      simp only [Heap.malloc]; rw [if_neg (by omega)]
    · simp only [List.map_cons, h5, Option.bind_some]
      rw [h4 _ (by omega)]
      simp [Heap.malloc, alloc]

/-- `free_mem_` of distinct live blocks. -/
theorem freeAll_spec : ∀ (ps : List (Option Nat)) (h : Heap), ps.Nodup → (∀ p ∈ ps, (p.bind h.mem).isSome) →
    ∃ h', freeAll ps h = .ok h' ∧ h'.next = h.next ∧ ∀ a, h'.mem a = if some a ∈ ps then none else h.mem a
  | [], h, _, _ => ⟨h, rfl, rfl, fun a => by simp⟩
  | p :: ps, h, hnd, hl => by
    rw [List.nodup_cons] at hnd
    have hp := hl p (by simp)
    cases p with
    | none => simp at hp
    | some p =>
      obtain ⟨b, hb⟩ := Option.isSome_iff_exists.mp hp
      simp only [Option.bind_some] at hb
      have hfree : h.free (some p) = .ok { h with mem := fun a => if a = p then none else h.mem a } := by
        simp [Heap.free, hb]
      obtain ⟨h', e1, e2, e3⟩ := freeAll_spec ps { h with mem := fun a => if a = p then none else h.mem a } hnd.2 (by
        intro q hq
        have hq' := hl q (by simp [hq])
        cases q with
        | none => simp at hq'
        | some q =>
          have : q ≠ p := by rintro rfl; exact hnd.1 hq
          simpa [this] using hq')
      refine ⟨h', ?_, e2, ?_⟩
      · show (h.free (some p) >>= fun h => freeAll ps h) = _
        rw [hfree]; exact e1
      · intro a
        rw [e3]
        by_cases ha : a = p
        · subst ha; simp
        · simp [ha]

theorem copyAll_zero : ∀ (ds ss : List (Option Nat)) (lens : List Nat) (h : Heap), (∀ l ∈ lens, l = 0) →
    copyAll ds ss lens h = .ok h
  | [], ss, lens, h, _ => by cases ss <;> cases lens <;> rfl
  | d :: ds, [], lens, h, _ => by cases lens <;> rfl
  | d :: ds, s :: ss, [], h, _ => rfl
  | d :: ds, s :: ss, l :: lens, h, hz => by
    have hl := hz l (by simp)
    show (copyArr h d s l >>= fun h => copyAll ds ss lens h) = _
    have : copyArr h d s l = .ok h := by simp [copyArr, hl]
    rw [this]
    exact copyAll_zero ds ss lens h (fun l hl => hz l (by simp [hl]))

/-- `copy_`: the fresh arrays get the contents of the others. -/
theorem copyAll_spec : ∀ (vs : List (List Nat)) (ds ss : List (Option Nat)) (h : Heap), ds.Nodup →
    (∀ s ∈ ss, s ∉ ds) →
    ds.map (fun p => (p.bind h.mem).map List.length) = vs.map (fun v => some v.length) →
    ss.map (fun p => p.bind h.mem) = vs.map some →
    ∃ h', copyAll ds ss (vs.map List.length) h = .ok h' ∧ h'.next = h.next ∧ (∀ a, some a ∉ ds → h'.mem a = h.mem a) ∧
      ds.map (fun p => p.bind h'.mem) = vs.map some
  | [], ds, ss, h, _, _, hd, _ => by
    simp at hd; subst hd
    exact ⟨h, by cases ss <;> rfl, rfl, by simp, by simp⟩
  | v :: vs, [], ss, h, _, _, hd, _ => by simp at hd
  | v :: vs, d :: ds, [], h, _, _, _, hs => by simp at hs
  | v :: vs, d :: ds, s :: ss, h, hnd, hdis, hd, hs => by
    rw [List.nodup_cons] at hnd
    simp only [List.map_cons, List.cons.injEq] at hd hs
    obtain ⟨hd1, hd2⟩ := hd
    obtain ⟨hs1, hs2⟩ := hs
    cases d with
    | none => simp at hd1
    | some d =>
      cases s with
      | none => simp at hs1
      | some s =>
        simp only [Option.bind_some] at hd1 hs1
        obtain ⟨b, hb, hbl⟩ := Option.map_eq_some_iff.mp hd1
        have hsd : s ≠ d := by rintro rfl; exact hdis (some s) (by simp) (by simp)
        obtain ⟨h1, e1, n1, m1⟩ : ∃ h1, copyArr h (some d) (some s) v.length = .ok h1 ∧ h1.next = h.next ∧
            ∀ a, h1.mem a = if a = d then some v else h.mem a := by
          by_cases hz : v.length = 0
          · refine ⟨h, by simp [copyArr, hz], rfl, fun a => ?_⟩
            split
            · rename_i ha; subst ha
              rw [hb]
              rw [List.length_eq_zero_iff.mp hz, List.length_eq_zero_iff.mp (hbl.trans hz)]
            · rfl
          · refine ⟨{ h with mem := fun a => if a = d then some v else h.mem a }, ?_, rfl, fun a => rfl⟩
            simp only [copyArr, if_neg hz, Heap.block, hs1, hb]
            show (if _ then _ else _) = _
            rw [if_pos ⟨Nat.le_refl _, by omega⟩]
            simp only [Except.ok.injEq, Heap.mk.injEq, true_and]
            funext a
            by_cases ha : a = d
            · simp [ha, List.drop_eq_nil_of_le (show b.length ≤ v.length by omega)]
            · simp [ha]
        have frame : ∀ (l : List (Option Nat)), some d ∉ l → ∀ (g : Option (List Nat) → Option (List Nat)),
            l.map (fun p => p.bind h1.mem) = l.map (fun p => p.bind h.mem) := by
          intro l hl g
          apply List.map_congr_left
          intro p hp
          cases p with
          | none => rfl
          | some p =>
            have : p ≠ d := by rintro rfl; exact hl hp
            simp [m1, this]
        have frame' : ds.map (fun p => (p.bind h1.mem).map List.length) = ds.map (fun p => (p.bind h.mem).map List.length) := by
          have := congrArg (List.map (Option.map List.length)) (frame ds hnd.1 id)
          simpa [List.map_map, Function.comp_def] using this
        obtain ⟨h', e2, n2, m2, r2⟩ := copyAll_spec vs ds ss h1 hnd.2
          (fun q hq hq' => hdis q (by simp [hq]) (by simp [hq']))
          (by rw [frame', hd2])
          (by rw [frame ss (fun hc => hdis (some d) (by simp [hc]) (by simp)) id, hs2])
        refine ⟨h', ?_, n2.trans n1, ?_, ?_⟩
        · show (copyArr h (some d) (some s) v.length >>= fun h => copyAll ds ss (vs.map List.length) h) = _
          rw [e1]; exact e2
        · intro a ha
          simp only [List.mem_cons, not_or, Option.some.injEq] at ha
          rw [m2 a ha.2, m1, if_neg ha.1]
        · simp only [List.map_cons, r2, Option.bind_some]
          rw [m2 d hnd.1, m1, if_pos rfl]

/-- Filling fresh arrays. -/
theorem fillAll_spec : ∀ (vs : List (List Nat)) (ds : List (Option Nat)) (h : Heap), ds.Nodup →
    ds.map (fun p => (p.bind h.mem).map List.length) = vs.map (fun v => some v.length) →
    ∃ h', fillAll ds vs h = .ok h' ∧ h'.next = h.next ∧ (∀ a, some a ∉ ds → h'.mem a = h.mem a) ∧
      ds.map (fun p => p.bind h'.mem) = vs.map some
  | [], ds, h, _, hd => by
    simp at hd; subst hd
    exact ⟨h, rfl, rfl, by simp, by simp⟩
  | v :: vs, [], h, _, hd => by simp at hd
  | v :: vs, d :: ds, h, hnd, hd => by
    rw [List.nodup_cons] at hnd
    simp only [List.map_cons, List.cons.injEq] at hd
    obtain ⟨hd1, hd2⟩ := hd
    cases d with
    | none => simp at hd1
    | some d =>
      simp only [Option.bind_some] at hd1
      obtain ⟨b, hb, hbl⟩ := Option.map_eq_some_iff.mp hd1
      have frame' : ds.map (fun p => (p.bind (fun a => if some a = some d then some v else h.mem a)).map List.length) =
          ds.map (fun p => (p.bind h.mem).map List.length) := by
        apply List.map_congr_left
        intro p hp
        cases p with
        | none => rfl
        | some p =>
          have : p ≠ d := by rintro rfl; exact hnd.1 hp
          simp [this]
      obtain ⟨h', e2, n2, m2, r2⟩ := fillAll_spec vs ds
        { h with mem := fun a => if some a = some d then some v else h.mem a } hnd.2 (by rw [frame', hd2])
      refine ⟨h', ?_, n2, ?_, ?_⟩
      · simp only [fillAll, Heap.block, hb]
        show (if _ then _ else _) = _
        rw [if_pos hbl]; exact e2
      · intro a ha
        simp only [List.mem_cons, not_or, Option.some.injEq] at ha
        rw [m2 a ha.2]
        simp [ha.1]
      · simp only [List.map_cons, r2, Option.bind_some]
        rw [m2 d hnd.1]
        simp

/-- An object stores a value. -/
structure Rep (K : Kind) (h : Heap) (o : Obj) (v : Val) : Prop where
  dims : v.dims = o.dims
  m : v.m = o.m
  lens : v.arrs.map List.length = K.lens o.dims o.m
  count : o.arrs.length = v.arrs.length
  live : 0 < o.m → o.arrs.map (fun p => p.bind h.mem) = v.arrs.map some

theorem Rep.value {K : Kind} (hK : K.Good) {h : Heap} {o : Obj} {v : Val} (r : Rep K h o v) : value h o = v := by
  obtain ⟨arrs, dims, m⟩ := v
  have h1 := r.dims
  have h2 := r.m
  have h3 := r.lens
  have h4 := r.count
  have h5 := r.live
  simp only at h1 h2 h3 h4 h5
  subst h1 h2
  simp only [Life.value, Val.mk.injEq, and_true]
  by_cases hm : o.m = 0
  · simp only [hm, if_true]
    rw [hm] at h3
    have hz := hK.zero o.dims
    rw [← h3] at hz
    apply List.ext_getElem (by simp [h4])
    intro k hk hk'
    simp only [List.getElem_map]
    exact (List.length_eq_zero_iff.mp (hz _ (List.mem_map.mpr ⟨_, List.getElem_mem hk', rfl⟩))).symm
  · simp only [hm, if_false]
    have := congrArg (List.map (fun x => Option.getD x [])) (h5 (by omega))
    simpa [List.map_map, Function.comp_def] using this

theorem Rep.isSome {K : Kind} {h : Heap} {o : Obj} {v : Val} (r : Rep K h o v) (hm : 0 < o.m) :
    ∀ p ∈ o.arrs, (p.bind h.mem).isSome := by
  intro p hp
  have : p.bind h.mem ∈ o.arrs.map (fun p => p.bind h.mem) := List.mem_map.mpr ⟨p, hp, rfl⟩
  rw [r.live hm] at this
  obtain ⟨b, _, hb⟩ := List.mem_map.mp this
  simp [← hb]

/-- The objects store the values, in separate blocks; and, under `P`, every block with elements belongs to an object. -/
structure Inv (K : Kind) (P : Prop) (st : State) (A : Vals) : Prop where
  fresh : Fresh st.heap
  dom : ∀ i, st.objs i = none → A i = none
  rep : ∀ i o, st.objs i = some o → ∃ v, A i = some v ∧ Rep K st.heap o v
  nodup : ∀ i o, st.objs i = some o → 0 < o.m → o.arrs.Nodup
  sep : ∀ i j oi oj, i ≠ j → st.objs i = some oi → st.objs j = some oj → 0 < oi.m → 0 < oj.m →
    ∀ p ∈ oi.arrs, p ∉ oj.arrs
  own : P → ∀ a b, st.heap.mem a = some b → b ≠ [] → ∃ i o, st.objs i = some o ∧ 0 < o.m ∧ some a ∈ o.arrs

theorem Inv.init (K : Kind) (P : Prop) : Inv K P State.init (fun _ => none) :=
  ⟨fun _ _ => rfl, fun _ _ => rfl, fun _ _ h => by simp [State.init] at h, fun _ _ h => by simp [State.init] at h,
    fun _ _ _ _ _ h => by simp [State.init] at h, fun _ _ _ h => by simp [State.init, Heap.empty] at h⟩

theorem Inv.isSome {K : Kind} {P : Prop} {st : State} {A : Vals} (I : Inv K P st A) (i : Nat) : (A i).isSome = (st.objs i).isSome := by
  cases h : st.objs i with
  | none => simp [I.dom i h]
  | some o => obtain ⟨v, hv, _⟩ := I.rep i o h; simp [hv]

/-- Object `i` gets a new value, the blocks of the others are as before. -/
theorem Inv.update {K : Kind} {P : Prop} {st : State} {A : Vals} (I : Inv K P st A) (i : Nat) (o : Obj) (v : Val) (h' : Heap)
    (hf : Fresh h') (hr : Rep K h' o v) (hnd : 0 < o.m → o.arrs.Nodup)
    (hframe : ∀ j oj, j ≠ i → st.objs j = some oj → 0 < oj.m → ∀ p ∈ oj.arrs, p.bind h'.mem = p.bind st.heap.mem)
    (hsep : ∀ j oj, j ≠ i → st.objs j = some oj → 0 < oj.m → 0 < o.m → ∀ p ∈ o.arrs, p ∉ oj.arrs)
    (hown : ∀ a b, h'.mem a = some b → b ≠ [] → (0 < o.m ∧ some a ∈ o.arrs) ∨
      (st.heap.mem a = some b ∧ ∀ oi, st.objs i = some oi → 0 < oi.m → some a ∉ oi.arrs)) :
    Inv K P (st.set i (some o) h') (A.set i (some v)) := by
  refine ⟨hf, ?_, ?_, ?_, ?_, ?_⟩
  rotate_right
  · intro hP a b hab hb
    rcases hown a b hab hb with ⟨h1, h2⟩ | ⟨h1, h2⟩
    · exact ⟨i, o, by simp [State.set], h1, h2⟩
    · obtain ⟨j, oj, hj1, hj2, hj3⟩ := I.own hP a b h1 hb
      have hji : j ≠ i := by rintro rfl; exact h2 oj hj1 hj2 hj3
      exact ⟨j, oj, by simp [State.set, hji, hj1], hj2, hj3⟩
  · intro k hk
    simp only [State.set, Vals.set] at hk ⊢
    by_cases hki : k = i
    · simp [hki] at hk
    · rw [if_neg hki] at hk ⊢; exact I.dom k hk
  · intro k ok hk
    simp only [State.set, Vals.set] at hk ⊢
    by_cases hki : k = i
    · rw [if_pos hki] at hk ⊢
      obtain rfl := Option.some.inj hk
      exact ⟨v, rfl, hr⟩
    · rw [if_neg hki] at hk ⊢
      obtain ⟨w, hw, r⟩ := I.rep k ok hk
      refine ⟨w, hw, r.dims, r.m, r.lens, r.count, fun hm => ?_⟩
      rw [← r.live hm]
      exact List.map_congr_left (fun p hp => hframe k ok hki hk hm p hp)
  · intro k ok hk hm
    simp only [State.set] at hk
    by_cases hki : k = i
    · rw [if_pos hki] at hk
      obtain rfl := Option.some.inj hk
      exact hnd hm
    · rw [if_neg hki] at hk; exact I.nodup k ok hk hm
  · intro a b oa ob hab ha hb hma hmb p hp hp'
    simp only [State.set] at ha hb
    by_cases hai : a = i
    · rw [if_pos hai] at ha
      obtain rfl := Option.some.inj ha
      rw [if_neg (by omega)] at hb
      exact hsep b ob (by omega) hb hmb hma p hp hp'
    · rw [if_neg hai] at ha
      by_cases hbi : b = i
      · rw [if_pos hbi] at hb
        obtain rfl := Option.some.inj hb
        exact hsep a oa hai ha hma hmb p hp' hp
      · rw [if_neg hbi] at hb
        exact I.sep a b oa ob hab ha hb hma hmb p hp hp'

theorem swap01_map {α β : Type} (f : α → β) : ∀ l : List α, (swap01 l).map f = swap01 (l.map f)
  | [] => rfl
  | [_] => rfl
  | _ :: _ :: _ => rfl

theorem swap01_perm {α : Type} : ∀ l : List α, (swap01 l).Perm l
  | [] => .refl _
  | [_] => .refl _
  | _ :: _ :: _ => .swap _ _ _

/-- `allocate_(); copy_(other)` makes a new object with the same value in new blocks. -/
theorem copyObj_spec {K : Kind} (hK : K.Good) (junk : Nat → Nat → Nat) (other : Obj) (v : Val) (h : Heap) (hf : Fresh h)
    (r : Rep K h other v) :
    ∃ o h', copyObj K junk other h = .ok (o, h') ∧ Fresh h' ∧ Rep K h' o v ∧ o.arrs.Nodup ∧
      (∀ a < h.next, h'.mem a = h.mem a) ∧ (∀ a, some a ∈ o.arrs → h.next ≤ a) ∧ none ∉ o.arrs ∧
      (∀ a b, h'.mem a = some b → b ≠ [] → (0 < o.m ∧ some a ∈ o.arrs) ∨ h.mem a = some b) ∧
      o.m = other.m ∧ h.next ≤ h'.next ∧ (∀ a, some a ∈ o.arrs → a < h'.next) ∧ (∀ a, some a ∉ o.arrs → h'.mem a = h.mem a) := by
  obtain ⟨h1, h2, h3, h4, h5⟩ := allocAll_spec junk (K.lens other.dims other.m) h hf
  rw [← r.lens] at h1 h2 h3 h4 h5
  set A := allocAll junk (v.arrs.map List.length) h with hA
  have hnd : A.1.Nodup := by
    rw [h1]
    rw [List.Nodup, List.pairwise_map]
    exact List.Pairwise.imp (fun hne hc => hne (Option.some.inj hc)) (List.nodup_range' (step := 1))
  have hge : ∀ a, some a ∈ A.1 → h.next ≤ a := by
    intro a ha
    rw [h1] at ha
    obtain ⟨k, hk, e⟩ := List.mem_map.mp ha
    obtain rfl := Option.some.inj e
    exact (List.mem_range'_1.mp hk).1
  have hnone : none ∉ A.1 := by rw [h1]; simp
  have hltA : ∀ a, some a ∈ A.1 → a < A.2.next := by
    intro a ha
    rw [h1] at ha
    obtain ⟨k, hk, e⟩ := List.mem_map.mp ha
    obtain rfl := Option.some.inj e
    have := (List.mem_range'_1.mp hk).2
    omega
  have hout : ∀ a, some a ∉ A.1 → A.2.mem a = h.mem a := by
    intro a hin
    by_cases ha : a < h.next
    · exact h4 a ha
    · rw [hf a (by omega)]
      rw [h1] at hin
      exact h3 a (by
        rw [h2]
        by_contra hc
        exact hin (List.mem_map.mpr ⟨a, List.mem_range'_1.mpr ⟨by omega, by omega⟩, rfl⟩))
  have hlen : A.1.length = v.arrs.length := by rw [h1]; simp
  have e : copyObj K junk other h = (copyAll A.1 other.arrs (v.arrs.map List.length) A.2 >>= fun h' =>
      .ok (⟨A.1, other.dims, other.m⟩, h')) := by
    rw [copyObj, ← r.lens]
  rw [List.map_map] at h5
  by_cases hm : other.m = 0
  · have hz : ∀ l ∈ v.arrs.map List.length, l = 0 := by rw [r.lens, hm]; exact hK.zero _
    refine ⟨⟨A.1, other.dims, other.m⟩, A.2, ?_, h3, ?_, hnd, h4, hge, hnone, ?_, rfl, by omega, ?_, hout⟩
    rotate_right 2
    · intro a b hab hb
      by_cases ha : a < h.next
      · right; rw [← h4 a ha]; exact hab
      · exfalso
        by_cases hin : some a ∈ A.1
        · obtain ⟨k, hk, hk'⟩ := List.getElem_of_mem hin
          have h6 := congrArg (fun l => l[k]?) h5
          have hkv : k < v.arrs.length := by omega
          simp only [List.getElem?_map, List.getElem?_eq_getElem hk, List.getElem?_eq_getElem hkv, Option.map_some, hk',
            Option.bind_some, hab, Option.some.injEq, Function.comp_apply] at h6
          have h7 := hz _ (List.mem_map.mpr ⟨_, List.getElem_mem hkv, rfl⟩)
          exact hb (List.length_eq_zero_iff.mp (h6.trans h7))
        · rw [h1] at hin
          have : A.2.mem a = none := h3 a (by
            rw [h2]
            by_contra hc
            exact hin (List.mem_map.mpr ⟨a, List.mem_range'_1.mpr ⟨by omega, by omega⟩, rfl⟩))
          rw [this] at hab; simp at hab
    · exact hltA
    · rw [e, copyAll_zero _ _ _ _ hz]; rfl
    · exact ⟨r.dims, r.m, r.lens, hlen, fun hc => absurd hm (by simp only at hc; omega)⟩
  · have hsrc : ∀ s ∈ other.arrs, ∃ a, s = some a ∧ a < h.next := by
      intro s hs
      have := r.isSome (by omega) s hs
      cases s with
      | none => simp at this
      | some s =>
        obtain ⟨b, hb⟩ := Option.isSome_iff_exists.mp this
        exact ⟨s, rfl, hf.lt hb⟩
    obtain ⟨h', e2, n2, m2, r2⟩ := copyAll_spec v.arrs A.1 other.arrs A.2 hnd
      (fun s hs hs' => by
        obtain ⟨a, rfl, ha⟩ := hsrc s hs
        have := hge a hs'; omega)
      h5
      (by
        rw [← r.live (by omega)]
        apply List.map_congr_left
        intro s hs
        obtain ⟨a, rfl, ha⟩ := hsrc s hs
        exact h4 a ha)
    refine ⟨⟨A.1, other.dims, other.m⟩, h', ?_, ?_, ?_, hnd, ?_, hge, hnone, ?_, rfl, by omega, ?_, ?_⟩
    rotate_right 3
    · intro a b hab hb
      by_cases hin : some a ∈ A.1
      · left; exact ⟨by simp only; omega, hin⟩
      · right
        rw [m2 a hin] at hab
        by_cases ha : a < h.next
        · rw [← h4 a ha]; exact hab
        · rw [h1] at hin
          have : A.2.mem a = none := h3 a (by
            rw [h2]
            by_contra hc
            exact hin (List.mem_map.mpr ⟨a, List.mem_range'_1.mpr ⟨by omega, by omega⟩, rfl⟩))
          rw [this] at hab; simp at hab
    · intro a ha; rw [n2]; exact hltA a ha
    · intro a ha; rw [m2 a ha]; exact hout a ha
    · rw [e, e2]; rfl
    · intro a ha
      rw [m2 a, h3 a (by omega)]
      intro hc
      rw [h1] at hc
      obtain ⟨k, hk, e⟩ := List.mem_map.mp hc
      obtain rfl := Option.some.inj e
      have := (List.mem_range'_1.mp hk).2
      omega
    · exact ⟨r.dims, r.m, r.lens, hlen, fun _ => r2⟩
    · intro a ha
      rw [m2 a (fun hc => by have := hge a hc; omega), h4 a ha]

/-- `free()` of an object of a program. -/
theorem freeObj_spec {K : Kind} {P : Prop} (hK : K.Good) {st : State} {A : Vals} (I : Inv K P st A) (i : Nat) (o : Obj)
    (ho : st.objs i = some o) :
    ∃ o' h', freeObj K o st.heap = .ok (o', h') ∧ o'.m = 0 ∧ h'.next = st.heap.next ∧ Fresh h' ∧
      (∀ j oj, j ≠ i → st.objs j = some oj → 0 < oj.m → ∀ p ∈ oj.arrs, p.bind h'.mem = p.bind st.heap.mem) ∧
      (0 < o.m → Rep K h' o' (emptyVal K (K.freed o.dims))) ∧ (o.m = 0 → o' = o ∧ h' = st.heap) ∧
      (∀ a b, h'.mem a = some b → st.heap.mem a = some b ∧ (0 < o.m → some a ∉ o.arrs)) := by
  obtain ⟨v, hv, r⟩ := I.rep i o ho
  by_cases hm : 0 < o.m
  · obtain ⟨h', e1, e2, e3⟩ := freeAll_spec o.arrs st.heap (I.nodup i o ho hm) (r.isSome hm)
    refine ⟨{ o with dims := K.freed o.dims, m := 0 }, h', ?_, rfl, e2, ?_, ?_, ?_, fun hc => absurd hc (by omega), ?_⟩
    rotate_right
    · intro a b hab
      rw [e3] at hab
      split at hab
      · simp at hab
      · rename_i hn; exact ⟨hab, fun _ => hn⟩
    · simp only [freeObj, gt_iff_lt, hm, if_true, e1]; rfl
    · intro a ha
      rw [e3]
      split
      · rfl
      · exact I.fresh a (by omega)
    · intro j oj hji hj hmj p hp
      cases p with
      | none => rfl
      | some p =>
        simp only [Option.bind_some]
        rw [e3, if_neg (I.sep j i oj o hji hj ho hmj hm _ hp)]
    · intro _
      have hc := r.count
      have hl := congrArg List.length r.lens
      simp only [List.length_map] at hl
      refine ⟨rfl, rfl, ?_, ?_, fun hc => absurd hc (by simp)⟩
      · simp only [emptyVal, List.map_map]
        apply List.ext_getElem (by simp)
        intro k hk hk'
        simp only [List.getElem_map, Function.comp_apply, List.length_nil]
        exact (hK.zero _ _ (List.getElem_mem hk')).symm
      · simp only [emptyVal, List.length_map]
        rw [hc, hl]; exact hK.count _ _ _ _
  · have hm0 : o.m = 0 := by omega
    exact ⟨o, st.heap, by simp [freeObj, hm0], hm0, rfl, I.fresh, fun _ _ _ _ _ _ _ => rfl, fun hc => absurd hc hm,
      fun _ => ⟨rfl, rfl⟩, fun _ _ h => ⟨h, fun hc => absurd hc hm⟩⟩

/-- A copy of object `j`'s value, made in a heap in which the other objects are intact, put at name `i`. -/
theorem Inv.copyTo {K : Kind} {P : Prop} (hK : K.Good) {st : State} {A : Vals} (I : Inv K P st A) (junk : Nat → Nat → Nat) (i j : Nat)
    (hij : i ≠ j) (other : Obj) (v : Val) (hj : st.objs j = some other) (hv : A j = some v) (h : Heap)
    (hnext : h.next = st.heap.next) (hf : Fresh h)
    (hframe : ∀ k ok, k ≠ i → st.objs k = some ok → 0 < ok.m → ∀ p ∈ ok.arrs, p.bind h.mem = p.bind st.heap.mem)
    (hold : ∀ a b, h.mem a = some b → st.heap.mem a = some b ∧ ∀ oi, st.objs i = some oi → 0 < oi.m → some a ∉ oi.arrs) :
    ∃ o h', copyObj K junk other h = .ok (o, h') ∧ Inv K P (st.set i (some o) h') (A.set i (some v)) := by
  obtain ⟨v', hv', r⟩ := I.rep j other hj
  obtain rfl := Option.some.inj (hv.symm.trans hv')
  have r' : Rep K h other v := ⟨r.dims, r.m, r.lens, r.count, fun hm => by
    rw [← r.live hm]
    exact List.map_congr_left (fun p hp => hframe j other (fun hc => hij hc.symm) hj hm p hp)⟩
  obtain ⟨o, h', e1, e2, e3, e4, e5, e6, e7, e8, _⟩ := copyObj_spec hK junk other v h hf r'
  have hlt : ∀ k ok, st.objs k = some ok → 0 < ok.m → ∀ p ∈ ok.arrs, ∃ a, p = some a ∧ a < st.heap.next := by
    intro k ok hk hm p hp
    obtain ⟨w, _, rw'⟩ := I.rep k ok hk
    have := rw'.isSome hm p hp
    cases p with
    | none => simp at this
    | some p =>
      obtain ⟨b, hb⟩ := Option.isSome_iff_exists.mp this
      exact ⟨p, rfl, I.fresh.lt hb⟩
  refine ⟨o, h', e1, I.update i o v h' e2 e3 (fun _ => e4) ?_ ?_ ?_⟩
  rotate_right
  · intro a b hab hb
    rcases e8 a b hab hb with h1 | h1
    · exact .inl h1
    · exact .inr (hold a b h1)
  · intro k ok hki hk hm p hp
    rw [← hframe k ok hki hk hm p hp]
    obtain ⟨a, rfl, ha⟩ := hlt k ok hk hm p hp
    exact e5 a (by omega)
  · intro k ok hki hk hm _ p hp hp'
    obtain ⟨a, rfl, ha⟩ := hlt k ok hk hm p hp'
    have := e6 a hp; omega

/-- Every operation on a correct state succeeds and does to the values what it should. -/
theorem step_inv {K : Kind} {P : Prop} (hK : K.Good) (op : Op) {st : State} {A : Vals} (I : Inv K P st A)
    (htidy : P → TidyOp op A) :
    ∃ st', step K op st = .ok st' ∧ Inv K P st' (vstep K op A) := by
  cases op with
  | construct i v =>
    simp only [step, vstep, I.isSome]
    split
    · exact ⟨st, rfl, I⟩
    · rename_i hc
      simp only [not_or, Bool.not_eq_true, Option.isSome_eq_false_iff, Option.isNone_iff_eq_none, ne_eq, not_not] at hc
      obtain ⟨hi, hl⟩ := hc
      obtain ⟨h1, h2, h3, h4, h5⟩ := allocAll_spec (fun _ _ => 0) (K.lens v.dims v.m) st.heap I.fresh
      rw [← hl] at h1 h2 h3 h4 h5 ⊢
      have hnd : (allocAll (fun _ _ => 0) (v.arrs.map List.length) st.heap).1.Nodup := by
        rw [h1, List.Nodup, List.pairwise_map]
        exact List.Pairwise.imp (fun hne hc => hne (Option.some.inj hc)) (List.nodup_range' (step := 1))
      rw [List.map_map] at h5
      obtain ⟨h', e1, e2, e3, e4⟩ := fillAll_spec v.arrs _ _ hnd h5
      rw [e1]
      have hmem : ∀ a, some a ∈ (allocAll (fun _ _ => 0) (v.arrs.map List.length) st.heap).1 →
          st.heap.next ≤ a ∧ a < st.heap.next + v.arrs.length := by
        intro a ha
        rw [h1] at ha
        obtain ⟨k, hk, e⟩ := List.mem_map.mp ha
        obtain rfl := Option.some.inj e
        have := List.mem_range'_1.mp hk
        simpa using this
      have hold : ∀ k ok, st.objs k = some ok → 0 < ok.m → ∀ p ∈ ok.arrs, ∃ a, p = some a ∧ a < st.heap.next := by
        intro k ok hk hm p hp
        obtain ⟨w, _, rw'⟩ := I.rep k ok hk
        have := rw'.isSome hm p hp
        cases p with
        | none => simp at this
        | some p =>
          obtain ⟨b, hb⟩ := Option.isSome_iff_exists.mp this
          exact ⟨p, rfl, I.fresh.lt hb⟩
      refine ⟨_, rfl, I.update i _ v h' ?_ ?_ (fun _ => hnd) ?_ ?_ ?_⟩
      rotate_right
      · intro a b hab hb
        by_cases hin : some a ∈ (allocAll (fun _ _ => 0) (v.arrs.map List.length) st.heap).1
        · left
          refine ⟨?_, hin⟩
          simp only
          by_contra hc
          have hz := hK.zero v.dims
          have hl' := hl
          rw [show v.m = 0 by omega] at hl'
          rw [← hl'] at hz
          have : some b ∈ v.arrs.map some := by
            rw [← e4]; exact List.mem_map.mpr ⟨some a, hin, hab⟩
          obtain ⟨b', hb', e⟩ := List.mem_map.mp this
          obtain rfl := Option.some.inj e
          exact hb (List.length_eq_zero_iff.mp (hz _ (List.mem_map.mpr ⟨b', hb', rfl⟩)))
        · right
          refine ⟨?_, fun oi hoi => by rw [hi] at hoi; simp at hoi⟩
          rw [e3 a hin] at hab
          by_cases ha : a < st.heap.next
          · rw [← h4 a ha]; exact hab
          · rw [h1] at hin
            rw [h3 a (by
              rw [h2]
              by_contra hc
              exact hin (List.mem_map.mpr ⟨a, List.mem_range'_1.mpr ⟨by omega, by omega⟩, rfl⟩))] at hab
            simp at hab
      · intro a ha
        rw [e2, h2, List.length_map] at ha
        rw [e3 a (fun hc => by have := hmem a hc; omega)]
        exact h3 a (by rw [h2, List.length_map]; omega)
      · exact ⟨rfl, rfl, hl, by rw [h1]; simp, fun _ => e4⟩
      · intro k ok _ hk hm p hp
        obtain ⟨a, rfl, ha⟩ := hold k ok hk hm p hp
        simp only [Option.bind_some]
        rw [e3 a (fun hc => by have := hmem a hc; omega), h4 a ha]
      · intro k ok _ hk hm _ p hp hp'
        obtain ⟨a, rfl, ha⟩ := hold k ok hk hm p hp'
        have := hmem a hp; omega
  | default i dims =>
    simp only [step, vstep, I.isSome]
    split
    · exact ⟨st, rfl, I⟩
    · refine ⟨_, rfl, I.update i _ _ st.heap I.fresh ⟨rfl, rfl, ?_, ?_, fun hc => absurd hc (by simp)⟩
        (fun hc => absurd hc (by simp)) (fun _ _ _ _ _ _ _ => rfl) (fun _ _ _ _ _ hc => absurd hc (by simp))
        (fun a b hab _ => .inr ⟨hab, fun oi hoi => by simp_all⟩)⟩
      · simp only [emptyVal, List.map_map]
        apply List.ext_getElem (by simp)
        intro k hk hk'
        simp only [List.getElem_map, Function.comp_apply, List.length_nil]
        exact (hK.zero _ _ (List.getElem_mem hk')).symm
      · simp [emptyVal]
  | copy i j junk =>
    simp only [step, vstep]
    cases hi : st.objs i with
    | some o =>
      obtain ⟨v, hv, _⟩ := I.rep i o hi
      rw [hv]
      exact ⟨st, rfl, I⟩
    | none =>
      rw [I.dom i hi]
      cases hj : st.objs j with
      | none => rw [I.dom j hj]; exact ⟨st, rfl, I⟩
      | some other =>
        obtain ⟨v, hv, r⟩ := I.rep j other hj
        rw [hv]
        obtain ⟨o, h', e, I'⟩ := I.copyTo hK junk i j (by rintro rfl; simp [hi] at hj) other v hj hv st.heap rfl I.fresh
          (fun _ _ _ _ _ _ _ => rfl) (fun a b hab => ⟨hab, fun oi hoi => by simp [hi] at hoi⟩)
        exact ⟨_, by simp only [e]; rfl, I'⟩
  | assign i j junk =>
    simp only [step, vstep]
    cases hi : st.objs i with
    | none => rw [I.dom i hi]; exact ⟨st, rfl, I⟩
    | some o =>
      obtain ⟨w, hw, _⟩ := I.rep i o hi
      rw [hw]
      cases hj : st.objs j with
      | none => rw [I.dom j hj]; exact ⟨st, rfl, I⟩
      | some other =>
        obtain ⟨v, hv, r⟩ := I.rep j other hj
        rw [hv]
        simp only
        by_cases hij : i = j
        · subst hij
          rw [if_pos rfl]
          obtain rfl := Option.some.inj (hw.symm.trans hv)
          have : A.set i (some w) = A := by
            funext k; simp only [Vals.set]; split
            · rename_i h; rw [h, hw]
            · rfl
          rw [this]
          exact ⟨st, rfl, I⟩
        · rw [if_neg hij]
          obtain ⟨o', h', e1, _, e3, e4, e5, _, _, e8⟩ := freeObj_spec hK I i o hi
          obtain ⟨o2, h2, e, I'⟩ := I.copyTo hK junk i j hij other v hj hv h' e3 e4 e5
            (fun a b hab => ⟨(e8 a b hab).1, fun oi hoi hm => by rw [hi] at hoi; obtain rfl := Option.some.inj hoi; exact (e8 a b hab).2 hm⟩)
          exact ⟨_, by simp only [e1]; show (copyObj K junk other h' >>= _) = _; rw [e]; rfl, I'⟩
  | transpose i =>
    simp only [step, vstep]
    cases hi : st.objs i with
    | none => rw [I.dom i hi]; exact ⟨st, rfl, I⟩
    | some o =>
      obtain ⟨v, hv, r⟩ := I.rep i o hi
      rw [hv]
      simp only
      split
      · rename_i hs
        refine ⟨_, rfl, I.update i _ _ st.heap I.fresh ⟨r.dims, r.m, ?_, ?_, ?_⟩ ?_ (fun _ _ _ _ _ _ _ => rfl) ?_ ?_⟩
        rotate_right
        · intro a b hab _
          by_cases hown : 0 < o.m ∧ some a ∈ o.arrs
          · exact .inl ⟨hown.1, (swap01_perm o.arrs).mem_iff.mpr hown.2⟩
          · refine .inr ⟨hab, fun oi hoi hm hin => ?_⟩
            rw [hi] at hoi; obtain rfl := Option.some.inj hoi
            exact hown ⟨hm, hin⟩
        · simp only [swap01_map, r.lens]; exact hK.swap hs _ _
        · simp only [(swap01_perm _).length_eq, r.count]
        · intro hm
          simp only [swap01_map, r.live hm]
        · intro hm
          exact (swap01_perm o.arrs).nodup_iff.mpr (I.nodup i o hi hm)
        · intro k ok hki hk hm hm' p hp
          exact I.sep i k o ok (fun hc => hki hc.symm) hi hk hm' hm p ((swap01_perm o.arrs).mem_iff.mp hp)
      · exact ⟨st, rfl, I⟩
  | free i =>
    simp only [step, vstep]
    cases hi : st.objs i with
    | none => rw [I.dom i hi]; exact ⟨st, rfl, I⟩
    | some o =>
      obtain ⟨v, hv, r⟩ := I.rep i o hi
      rw [hv]
      simp only
      obtain ⟨o', h', e1, e2, e3, e4, e5, e6, e7, e8⟩ := freeObj_spec hK I i o hi
      rw [e1]
      refine ⟨_, rfl, ?_⟩
      rw [r.m, r.dims]
      by_cases hm : 0 < o.m
      · rw [if_pos hm]
        exact I.update i o' _ h' e4 (e6 hm) (fun hc => absurd hc (by omega)) e5 (fun _ _ _ _ _ hc => absurd hc (by omega))
          (fun a b hab _ => .inr ⟨(e8 a b hab).1, fun oi hoi hm => by
            rw [hi] at hoi; obtain rfl := Option.some.inj hoi; exact (e8 a b hab).2 hm⟩)
      · rw [if_neg hm]
        obtain ⟨rfl, rfl⟩ := e7 (by omega)
        have : st.set i (some o') st.heap = st := by
          cases st
          simp only [State.set, State.mk.injEq, and_true]
          funext k; split
          · rename_i h; rw [h]; exact hi.symm
          · rfl
        simp only [this]
        exact I
  | write i a k x =>
    simp only [step, vstep]
    cases hi : st.objs i with
    | none => rw [I.dom i hi]; exact ⟨st, rfl, I⟩
    | some o =>
      obtain ⟨v, hv, r⟩ := I.rep i o hi
      rw [hv]
      simp only
      have hlen : (K.lens o.dims o.m).getD a 0 = (v.arrs.getD a []).length := by
        rw [← r.lens]
        simp only [List.getD_eq_getElem?_getD, List.getElem?_map]
        cases v.arrs[a]? <;> rfl
      rw [hlen]
      by_cases hk : k < (v.arrs.getD a []).length
      · rw [if_pos hk]
        have ha : a < v.arrs.length := by
          by_contra hc
          rw [List.getD_eq_getElem?_getD, List.getElem?_eq_none (by omega)] at hk
          simp at hk
        have hva : v.arrs.getD a [] = v.arrs[a] := by simp [List.getD_eq_getElem?_getD, ha]
        rw [hva] at hk
        have hm : 0 < o.m := by
          by_contra hc
          have hz := hK.zero o.dims
          have hl := r.lens
          rw [show o.m = 0 by omega] at hl
          rw [← hl] at hz
          have := hz _ (List.mem_map.mpr ⟨_, List.getElem_mem ha, rfl⟩)
          omega
        have hao : a < o.arrs.length := by rw [r.count]; exact ha
        have hl := r.live hm
        have hblk : o.arrs[a].bind st.heap.mem = some v.arrs[a] := by
          have := congrArg (fun l => l[a]?) hl
          simpa [hao, ha] using this
        have hoa : o.arrs.getD a none = o.arrs[a] := by simp [List.getD_eq_getElem?_getD, hao]
        rw [hoa]
        cases hpa : o.arrs[a] with
        | none => rw [hpa] at hblk; simp at hblk
        | some p =>
          rw [hpa] at hblk
          simp only [Option.bind_some] at hblk
          have e : st.heap.store (some p) k x = .ok { st.heap with mem := fun b => if some b = some p then some (v.arrs[a].set k x) else st.heap.mem b } := by
            simp only [Heap.store, Heap.block, hblk]
            show (if _ then _ else _) = _
            rw [if_pos hk]
          rw [e]
          have hnd := I.nodup i o hi hm
          refine ⟨_, rfl, I.update i o _ _ ?_ ⟨r.dims, r.m, ?_, ?_, ?_⟩ (fun hm => hnd) ?_ ?_ ?_⟩
          rotate_right
          · intro b blk hab _
            by_cases hown : some b ∈ o.arrs
            · exact .inl ⟨hm, hown⟩
            · have hbp : b ≠ p := by
                rintro rfl
                exact hown (hpa ▸ List.getElem_mem hao)
              simp only [Option.some.injEq, if_neg hbp] at hab
              refine .inr ⟨hab, fun oi hoi _ hin => ?_⟩
              rw [hi] at hoi; obtain rfl := Option.some.inj hoi
              exact hown hin
          · intro b hb
            simp only at hb ⊢
            have := I.fresh.lt hblk
            rw [if_neg (by simp; omega)]
            exact I.fresh b hb
          · rw [← r.lens]
            apply List.ext_getElem (by simp)
            intro q hq hq'
            simp only [List.getElem_map, List.getElem_modify]
            split <;> simp
          · simp [r.count]
          · intro _
            apply List.ext_getElem (by simp [r.count])
            intro q hq hq'
            simp only [List.length_map, List.length_modify] at hq hq'
            have hqv : o.arrs[q].bind st.heap.mem = some v.arrs[q] := by
              have := congrArg (fun l => l[q]?) hl
              simpa [hq, hq'] using this
            simp only [List.getElem_map, List.getElem_modify]
            by_cases hqa : a = q
            · subst hqa
              rw [if_pos rfl, hpa]; simp
            · rw [if_neg hqa, ← hqv]
              cases hpq : o.arrs[q] with
              | none => rfl
              | some p' =>
                have : p' ≠ p := by
                  rintro rfl
                  have hpw := List.pairwise_iff_getElem.mp hnd
                  rcases Nat.lt_or_gt_of_ne hqa with hlt | hlt
                  · exact hpw a q hao (by simpa using hq) hlt (hpa.trans hpq.symm)
                  · exact hpw q a (by simpa using hq) hao hlt (hpq.trans hpa.symm)
                simp [this]
          · intro j oj hji hj hmj q hq
            cases q with
            | none => rfl
            | some q =>
              have : q ≠ p := by
                rintro rfl
                exact I.sep j i oj o hji hj hi hmj hm _ hq (hpa ▸ List.getElem_mem hao)
              simp [this]
          · intro j oj hji hj hmj hm' q hq
            exact I.sep i j o oj (fun hc => hji hc.symm) hi hj hm' hmj q hq
      · rw [if_neg hk]
        have : v.arrs.modify a (fun l => l.set k x) = v.arrs := by
          apply List.ext_getElem (by simp)
          intro q hq hq'
          simp only [List.getElem_modify]
          split
          · rename_i h; subst h
            have hva : v.arrs.getD a [] = v.arrs[a] := by simp [List.getD_eq_getElem?_getD, hq']
            rw [hva] at hk
            exact List.set_eq_of_length_le (by omega)
          · rfl
        rw [this]
        have : A.set i (some v) = A := by
          funext k; simp only [Vals.set]; split
          · rename_i h; rw [h, hv]
          · rfl
        simp only [this]
        exact ⟨st, rfl, I⟩
  | destroy i =>
    refine ⟨_, rfl, ⟨I.fresh, ?_, ?_, ?_, ?_, ?_⟩⟩
    rotate_right
    · intro hP a b hab hb
      obtain ⟨j, oj, hj1, hj2, hj3⟩ := I.own hP a b hab hb
      have hji : j ≠ i := by
        rintro rfl
        obtain ⟨v, hv, r⟩ := I.rep j oj hj1
        have := htidy hP v hv
        rw [r.m] at this; omega
      exact ⟨j, oj, by simp [State.set, hji, hj1], hj2, hj3⟩
    · intro k hk
      simp only [vstep, Vals.set, State.set] at hk ⊢
      split
      · rfl
      · rename_i h; rw [if_neg h] at hk; exact I.dom k hk
    · intro k ok hk
      simp only [vstep, Vals.set, State.set] at hk ⊢
      by_cases h : k = i
      · simp [h] at hk
      · rw [if_neg h] at hk ⊢; exact I.rep k ok hk
    · intro k ok hk
      simp only [State.set] at hk
      by_cases h : k = i
      · simp [h] at hk
      · rw [if_neg h] at hk; exact I.nodup k ok hk
    · intro a b oa ob hab ha hb
      simp only [State.set] at ha hb
      by_cases h : a = i
      · simp [h] at ha
      · rw [if_neg h] at ha
        by_cases h' : b = i
        · simp [h'] at hb
        · rw [if_neg h'] at hb; exact I.sep a b oa ob hab ha hb

theorem run_inv {K : Kind} {P : Prop} (hK : K.Good) : ∀ (ops : List Op) {st : State} {A : Vals}, Inv K P st A →
    (P → Tidy K ops A) → ∃ st', run K ops st = .ok st' ∧ Inv K P st' (vrun K ops A)
  | [], st, A, I, _ => ⟨st, rfl, I⟩
  | op :: ops, st, A, I, ht => by
    obtain ⟨st1, e1, I1⟩ := step_inv hK op I (fun h => (ht h).1)
    obtain ⟨st2, e2, I2⟩ := run_inv hK ops I1 (fun h => (ht h).2)
    exact ⟨st2, by show (step K op st >>= fun st => run K ops st) = _; rw [e1]; exact e2, I2⟩

end Pigo.Life
