import Verif.Lemmas.Alias

/-!
# Copying the arrays of an object
-/

namespace Pigo.Alias

open Pigo.Life (HFault HM Val)

theorem bind_ok {α β : Type} {x : HM α} {a : α} (h : x = .ok a) (f : α → HM β) : (x >>= f) = f a := by rw [h]; rfl

/-- A function that replaces one slot per element, applied one after the other. -/
theorem each_ok {α : Type} {f : α → Heap → HM (Slot × Heap)} (old : α → Slot) (Q : α → Slot → List Nat → Prop) (base : Nat → Nat) (h0 : Heap)
    {U F : Prop} (hUF : U → F) : ∀ (as : List α),
    (∀ a ∈ as, ∀ L h, (∀ p, base p ≤ L p) → Keeps base h0 h → Cnt h (fun p => L p + own (old a) p) → (U → Uniq (fun p => L p + own (old a) p)) →
      ∃ s' h', f a h = .ok (s', h') ∧ Cnt h' (fun p => L p + own s' p) ∧ Keeps L h h' ∧ Q a s' (contents h' s') ∧ (F → ∀ p, s' = some p → L p = 0)) →
    ∀ L h, (∀ p, base p ≤ L p) → Keeps base h0 h → Cnt h (fun p => L p + cnt (as.map old) p) → (U → Uniq (fun p => L p + cnt (as.map old) p)) →
      ∃ ss h', each f as h = .ok (ss, h') ∧ Cnt h' (fun p => L p + cnt ss p) ∧ Keeps L h h' ∧ ss.length = as.length ∧
        (∀ t ∈ as.zip ss, Q t.1 t.2 (contents h' t.2)) ∧ (F → (∀ p, some p ∈ ss → L p = 0) ∧ ∀ p, cnt ss p ≤ 1)
  | [], _, L, h, _, _, H, _ => ⟨[], h, rfl, H, Keeps.refl _ _, rfl, by simp, fun _ => ⟨by simp, by simp [cnt]⟩⟩
  | a :: as, hf, L, h, hb, hk, H, hu => by
    obtain ⟨s', h1, e1, c1, k1, q1, f1⟩ := hf a (by simp) (fun p => L p + cnt (as.map old) p) h (fun p => by have := hb p; omega) hk
      (H.congr (fun p => by simp only [List.map_cons, cnt]; omega))
      (fun u p => by have := hu u p; simp only [List.map_cons, cnt] at this; simp only; omega)
    have hsub : ∀ p, base p ≤ L p + cnt (as.map old) p := fun p => by have := hb p; omega
    obtain ⟨ss, h2, e2, c2, k2, l2, q2, f2⟩ := each_ok old Q base h0 hUF as (fun b hbm => hf b (by simp [hbm]))
      (fun p => L p + own s' p) h1 (fun p => by have := hb p; omega) (hk.trans (k1.mono hsub))
      (c1.congr (fun p => by omega))
      (fun u p => by
        have h1 := uniq_add (s := s') (L := fun p => L p + cnt (as.map old) p)
          (fun p => by have := hu u p; simp only [List.map_cons, cnt] at this; simp only; omega) (f1 (hUF u)) p
        simp only at h1 ⊢; omega)
    refine ⟨s' :: ss, h2, ?_, ?_, ?_, by simp [l2], ?_, ?_⟩
    · show (f a h >>= _) = _
      rw [bind_ok e1]
      show (each f as h1 >>= _) = _
      rw [bind_ok e2]
    · exact c2.congr (fun p => by simp only [cnt]; omega)
    · exact (k1.mono (fun p => by omega)).trans (k2.mono (fun p => by omega))
    · intro t ht
      simp only [List.zip_cons_cons, List.mem_cons] at ht
      rcases ht with rfl | ht
      · simp only
        rw [k2.contents (s := s') (fun p hp => by rw [hp, own_self]; omega)]
        exact q1
      · exact q2 t ht
    · intro hF
      obtain ⟨g1, g2⟩ := f2 hF
      refine ⟨?_, ?_⟩
      · intro p hp
        simp only [List.mem_cons] at hp
        rcases hp with hp | hp
        · have := f1 hF p hp.symm; omega
        · have := g1 p hp; omega
      · intro p
        simp only [cnt]
        by_cases hp : 0 < cnt ss p
        · have h1 := g1 p (cnt_pos.mp hp); have := g2 p; omega
        · have := own_le s' p; omega

/-- A function that changes one block per element, different ones. -/
theorem each_put {α : Type} {f : α → Heap → HM Heap} (tgt : α → Slot) (R : α → List Nat) (M base : Nat → Nat) (h0 : Heap) : ∀ (as : List α),
    (∀ a ∈ as, ∀ h, Cnt h M → Keeps base h0 h → contents h (tgt a) = contents h0 (tgt a) →
      ∃ h', f a h = .ok h' ∧ Cnt h' M ∧ (∀ q, tgt a ≠ some q → cont h' q = cont h q) ∧ contents h' (tgt a) = R a) →
    (∀ p, cnt (as.map tgt) p ≤ 1) → (∀ p, some p ∈ as.map tgt → base p = 0) →
    ∀ h, Cnt h M → (∀ q, 0 < base q ∨ some q ∈ as.map tgt → cont h q = cont h0 q) →
      ∃ h', each_ f as h = .ok h' ∧ Cnt h' M ∧ (∀ q, some q ∉ as.map tgt → cont h' q = cont h q) ∧ ∀ a ∈ as, contents h' (tgt a) = R a
  | [], _, _, _, h, H, _ => ⟨h, rfl, H, fun _ _ => rfl, by simp⟩
  | a :: as, hf, hu, hb, h, H, hk => by
    have hta : contents h (tgt a) = contents h0 (tgt a) := by
      cases e : tgt a with
      | none => rfl
      | some q => rw [contents_cont, contents_cont, hk q (Or.inr (by simp [e]))]
    obtain ⟨h1, e1, c1, k1, r1⟩ := hf a (by simp) h H (fun q hq => hk q (Or.inl hq)) hta
    have hdis : ∀ q, some q ∈ as.map tgt → tgt a ≠ some q := by
      intro q hq e
      have h1 := hu q
      have h2 := cnt_pos.mpr hq
      simp only [List.map_cons, cnt, e, own_self] at h1
      omega
    obtain ⟨h2, e2, c2, k2, r2⟩ := each_put tgt R M base h0 as (fun b hbm => hf b (by simp [hbm]))
      (fun p => by have := hu p; simp only [List.map_cons, cnt] at this; omega) (fun p hp => hb p (by simp only [List.map_cons, List.mem_cons]; exact Or.inr hp))
      h1 c1 (by
        intro q hq
        rw [k1 q]
        · rcases hq with hq | hq
          · exact hk q (Or.inl hq)
          · exact hk q (Or.inr (by simp only [List.map_cons, List.mem_cons]; exact Or.inr hq))
        · rcases hq with hq | hq
          · intro e; have := hb q (by simp [e]); omega
          · exact hdis q hq)
    refine ⟨h2, ?_, c2, ?_, ?_⟩
    · show (f a h >>= _) = _
      rw [bind_ok e1]; exact e2
    · intro q hq
      simp only [List.map_cons, List.mem_cons, not_or] at hq
      rw [k2 q hq.2, k1 q (fun e => hq.1 e.symm)]
    · intro b hbm
      simp only [List.mem_cons] at hbm
      rcases hbm with rfl | hbm
      · cases e : tgt b with
        | none => rw [e] at r1; exact r1
        | some q =>
          rw [contents_cont, k2 q (fun hq => hdis q hq e), ← contents_cont, ← e]; exact r1
      · exact r2 b hbm

theorem each_drop {S : Stor} (hS : S ≠ .raw) : ∀ (ss : List Slot) (L : Nat → Nat) (h : Heap), Cnt h (fun p => L p + cnt ss p) →
    ∃ h', each_ (fun s h => drop S s h) ss h = .ok h' ∧ Cnt h' L ∧ Keeps L h h'
  | [], _, h, H => ⟨h, rfl, H, Keeps.refl _ _⟩
  | s :: ss, L, h, H => by
    obtain ⟨h1, e1, c1, k1⟩ := drop_ok hS (s := s) (L := fun p => L p + cnt ss p) (H.congr (fun p => by simp only [cnt]; omega))
    obtain ⟨h2, e2, c2, k2⟩ := each_drop hS ss L h1 c1
    refine ⟨h2, ?_, c2, (k1.mono (fun p => by omega)).trans k2⟩
    show (drop S s h >>= _) = _
    rw [bind_ok e1]; exact e2

theorem each_free {S : Stor} (hS : S ≠ .raw) : ∀ (ss : List Slot) (h : Heap), each_ (fun s h => freeMem S s h) ss h = .ok h
  | [], _ => rfl
  | s :: ss, h => by
    show (freeMem S s h >>= _) = _
    rw [bind_ok (a := h) (by cases S <;> cases s <;> first | rfl | exact absurd rfl hS)]
    exact each_free hS ss h

/-! ## Objects -/

/-- The sizes of the arrays of an object. -/
abbrev Obj.lens (o : Obj) : List Nat := o.cls.lens o.dims o.m

/-- The arrays of an object have room for as many elements as its fields say. -/
structure Ok (h : Heap) (o : Obj) : Prop where
  len : o.slots.length = o.lens.length
  room : ∀ t ∈ o.slots.zip o.lens, t.1.isSome → t.2 ≤ (contents h t.1).length
  null : o.cls.deep = true → ∀ t ∈ o.slots.zip o.lens, t.1 = none → t.2 = 0
  uniq : ∀ p, cnt o.slots p ≤ 1

theorem Ok.roomAll {h : Heap} {o : Obj} (k : Ok h o) (hd : o.cls.deep = true) : ∀ t ∈ o.slots.zip o.lens, t.2 ≤ (contents h t.1).length := by
  intro t ht
  cases e : t.1 with
  | none => rw [k.null hd t ht e]; omega
  | some p => have := k.room t ht (by simp [e]); rw [e] at this; exact this

theorem mem_slots {o : Obj} {t : Slot × Nat} (ht : t ∈ o.slots.zip o.lens) : t.1 ∈ o.slots := (List.of_mem_zip (a := t.1) (b := t.2) ht).1

theorem Ok.keeps {L : Nat → Nat} {h h' : Heap} {o : Obj} (k : Ok h o) (kp : Keeps L h h') (hs : ∀ p, some p ∈ o.slots → 0 < L p) : Ok h' o := by
  refine ⟨k.len, ?_, k.null, k.uniq⟩
  intro t ht hsome
  rw [kp.contents (fun p hp => hs p (hp ▸ mem_slots ht))]
  exact k.room t ht hsome

theorem value_keeps {L : Nat → Nat} {h h' : Heap} {o : Obj} (kp : Keeps L h h') (hs : ∀ p, some p ∈ o.slots → 0 < L p) : value h' o = value h o := by
  unfold value
  congr 1
  apply List.map_congr_left
  intro t ht
  rw [kp.contents (fun p hp => hs p (hp ▸ mem_slots ht))]

theorem zip_getElem {α β : Type} {as : List α} {bs : List β} {P : α × β → Prop} (h : ∀ t ∈ as.zip bs, P t) (i : Nat) (ha : i < as.length) (hb : i < bs.length) :
    P (as[i], bs[i]) := by
  apply h
  have : (as.zip bs)[i]'(by simp; omega) = (as[i], bs[i]) := by simp
  rw [← this]
  exact List.getElem_mem _

theorem zip_of_getElem {α β : Type} {as : List α} {bs : List β} {P : α × β → Prop} (h : ∀ i (ha : i < as.length) (hb : i < bs.length), P (as[i], bs[i])) :
    ∀ t ∈ as.zip bs, P t := by
  intro t ht
  obtain ⟨i, hi, e⟩ := List.mem_iff_getElem.mp ht
  simp only [List.getElem_zip] at e
  simp only [List.length_zip] at hi
  rw [← e]; exact h i (by omega) (by omega)

theorem map_fst_zip_of_length {α β : Type} {as : List α} {bs : List β} (h : as.length = bs.length) : (as.zip bs).map Prod.fst = as :=
  List.map_fst_zip (by omega)

/-- `allocate_(); copy_(other);` -/
theorem deepCopy_ok {S : Stor} (hS : S ≠ .raw) {h : Heap} {base : Nat → Nat} {old : List Slot} {other : Obj} (junk : Nat → Nat)
    (hd : other.cls.deep = true) (H : Cnt h (fun p => base p + cnt old p)) (hu : S = .vec → Uniq (fun p => base p + cnt old p))
    (k : Ok h other) (hs : ∀ p, some p ∈ other.slots → 0 < base p) (hl : old.length = other.lens.length) :
    ∃ o' h', deepCopy S junk old other h = .ok (o', h') ∧ Cnt h' (fun p => base p + cnt o'.slots p) ∧ Keeps base h h' ∧
      o'.cls = other.cls ∧ Ok h' o' ∧ value h' o' = value h other ∧ ∀ p, some p ∈ o'.slots → base p = 0 := by
  obtain ⟨ss, h1, e1, c1, k1, l1, q1, f1⟩ := each_ok (f := fun (t : Slot × Nat) h => allocate S junk t.2 t.1 h) (fun t : Slot × Nat => t.1)
    (fun t s b => b.length = t.2 ∧ s.isSome) base h (U := S = .vec) (F := True) (fun _ => trivial) (old.zip other.lens)
    (fun t _ L h' _ _ H' u => by
      obtain ⟨s', h2, a1, a2, a3, a4, p, a5, a6⟩ := allocate_ok hS junk t.2 H'
        (fun hv p hp => by have := u hv p; simp only [hp, own_self] at this; omega)
      exact ⟨s', h2, a1, a2, a3, ⟨a4, by simp [a5]⟩, fun _ q hq => by rw [a5] at hq; cases hq; exact a6⟩)
    base h (fun _ => Nat.le_refl _) (Keeps.refl _ _) (by rw [map_fst_zip_of_length hl]; exact H)
    (by rw [map_fst_zip_of_length hl]; exact hu)
  obtain ⟨f2, f3⟩ := f1 trivial
  have lss : ss.length = other.lens.length := by rw [l1]; simp [hl]
  have lso : ss.length = other.slots.length := by rw [lss, k.len]
  have q1' : ∀ t ∈ ss.zip other.lens, (contents h1 t.1).length = t.2 ∧ t.1.isSome := by
    apply zip_of_getElem (P := fun t => (contents h1 t.1).length = t.2 ∧ t.1.isSome)
    intro i ha hb
    have := zip_getElem (P := fun t => (contents h1 t.2).length = t.1.2 ∧ t.2.isSome) (fun t ht => q1 t ht) i (by simp; omega) ha
    simpa using this
  have mp1 : ((ss.zip other.slots).zip other.lens).map (fun t => t.1.1) = ss := by
    have : (fun t : (Slot × Slot) × Nat => t.1.1) = Prod.fst ∘ Prod.fst := rfl
    rw [this, ← List.map_map, map_fst_zip_of_length (by simp; omega), map_fst_zip_of_length lso]
  obtain ⟨h2, e2, c2, k2, r2⟩ := each_put (f := copyArr) (fun t => t.1.1) (fun t => (contents h t.1.2).take t.2) (fun p => base p + cnt ss p) base h1
    ((ss.zip other.slots).zip other.lens)
    (fun t ht h' H' kp hc => by
      obtain ⟨i, hi, e⟩ := List.mem_iff_getElem.mp ht
      simp only [List.getElem_zip] at e
      simp only [List.length_zip] at hi
      have hsrc : contents h' t.1.2 = contents h t.1.2 := by
        rw [(k1.trans kp).contents]
        intro p hp
        apply hs
        rw [← hp, ← e]; exact List.getElem_mem _
      have hroom : t.2 ≤ (contents h t.1.2).length := by
        have := zip_getElem (P := fun t => t.2 ≤ (contents h t.1).length) (k.roomAll hd) i (by omega) (by omega)
        rw [← e]; exact this
      have hlen : (contents h1 t.1.1).length = t.2 := by
        have := zip_getElem (P := fun t => (contents h1 t.1).length = t.2 ∧ t.1.isSome) q1' i (by omega) (by omega)
        rw [← e]; exact this.1
      have hg := get_ok (s := t.1.2) (len := t.2) H' (fun p hp => by
        have : some p ∈ other.slots := by rw [← hp, ← e]; exact List.getElem_mem _
        have := hs p this; omega) (by rw [hsrc]; exact hroom)
      rw [hsrc] at hg
      obtain ⟨h3, p1, p2, p3, p4⟩ := put_ok (s := t.1.1) (a := (contents h t.1.2).take t.2) H' (fun p hp => by
        have : some p ∈ ss := by rw [← hp, ← e]; exact List.getElem_mem _
        have := cnt_pos.mpr this; omega) (by rw [hc, hlen]; simp; omega)
      refine ⟨h3, ?_, p2, p3, ?_⟩
      · show (get t.1.2 t.2 h' >>= _) = _
        rw [bind_ok hg]; exact p1
      · rw [p4, hc, List.drop_eq_nil_of_le (by rw [hlen]; simp; omega), List.append_nil])
    (by rw [mp1]; exact f3) (by rw [mp1]; exact f2) h1 c1 (fun _ _ => rfl)
  rw [mp1] at k2
  have val2 : ∀ t ∈ (ss.zip other.slots).zip other.lens, contents h2 t.1.1 = (contents h t.1.2).take t.2 := r2
  refine ⟨{ other with slots := ss }, h2, ?_, c2, ?_, rfl, ⟨lss, ?_, ?_, f3⟩, ?_, f2⟩
  · show (each _ _ h >>= _) = _
    rw [bind_ok e1]
    show (each_ copyArr _ h1 >>= _) = _
    rw [bind_ok e2]
  · intro p hp
    rw [k2 p (fun hm => by have := f2 p hm; omega)]
    exact k1 p hp
  · intro t ht _
    obtain ⟨i, hi, e⟩ := List.mem_iff_getElem.mp ht
    simp only [List.getElem_zip] at e
    simp only [List.length_zip] at hi
    have := zip_getElem (P := fun (t : (Slot × Slot) × Nat) => contents h2 t.1.1 = (contents h t.1.2).take t.2) val2 i (by simp; omega) (by omega)
    simp only [List.getElem_zip] at this
    have hroom := zip_getElem (P := fun t => t.2 ≤ (contents h t.1).length) (k.roomAll hd) i (by omega) (by omega)
    rw [← e]
    simp only [this, List.length_take]
    simp only at hroom
    show _ ≤ min _ _
    exact Nat.le_min.mpr ⟨Nat.le_refl _, hroom⟩
  · intro _ t ht hn
    have := (q1' t ht).2
    rw [hn] at this; cases this
  · unfold value
    simp only
    congr 1
    apply List.ext_getElem
    · simp; omega
    · intro i hi hi'
      simp only [List.getElem_map, List.getElem_zip]
      simp only [List.length_map, List.length_zip] at hi hi'
      have := zip_getElem (P := fun (t : (Slot × Slot) × Nat) => contents h2 t.1.1 = (contents h t.1.2).take t.2) val2 i (by simp; omega) (by omega)
      simp only [List.getElem_zip] at this
      rw [this, List.take_take, Nat.min_self]

/-- What the implicit copy operations give. -/
theorem shallow_of {S : Stor} {h h' : Heap} {base : Nat → Nat} {other : Obj} {ss : List Slot} (k : Ok h other)
    (l1 : ss.length = other.slots.length)
    (q : ∀ t ∈ other.slots.zip ss, contents h' t.2 = contents h t.1 ∧ t.2.isNone = t.1.isNone ∧ (S = .shared → t.2 = t.1))
    (hS : S ≠ .raw) (f1 : S = .vec → (∀ p, some p ∈ ss → base p = 0) ∧ ∀ p, cnt ss p ≤ 1) :
    (S = .shared → ss = other.slots) ∧ Ok h' { other with slots := ss } ∧ value h' { other with slots := ss } = value h other := by
  have qi : ∀ i (hi : i < ss.length) (hi' : i < other.slots.length), contents h' ss[i] = contents h other.slots[i] ∧ ss[i].isNone = other.slots[i].isNone ∧
      (S = .shared → ss[i] = other.slots[i]) := fun i hi hi' =>
    zip_getElem (P := fun t => contents h' t.2 = contents h t.1 ∧ t.2.isNone = t.1.isNone ∧ (S = .shared → t.2 = t.1)) q i hi' hi
  have hsh : S = .shared → ss = other.slots := fun e => by
    apply List.ext_getElem l1
    intro i hi hi'
    exact (qi i hi hi').2.2 e
  have hlen : other.slots.length = other.lens.length := k.len
  refine ⟨hsh, ⟨l1.trans k.len, ?_, ?_, ?_⟩, ?_⟩
  · apply zip_of_getElem (P := fun t => t.1.isSome → t.2 ≤ (contents h' t.1).length)
    intro i ha hb hsome
    simp only at ha hb hsome ⊢
    obtain ⟨q1, q2, _⟩ := qi i ha (by omega)
    rw [q1]
    refine zip_getElem (P := fun t => t.1.isSome → t.2 ≤ (contents h t.1).length) k.room i (by omega) (by omega) ?_
    simp only
    cases e : other.slots[i] with
    | none => rw [e] at q2; cases e' : ss[i] <;> simp_all
    | some _ => rfl
  · intro hd
    apply zip_of_getElem (P := fun t => t.1 = none → t.2 = 0)
    intro i ha hb hn
    simp only at ha hb hn ⊢
    obtain ⟨q1, q2, _⟩ := qi i ha (by omega)
    refine zip_getElem (P := fun t => t.1 = none → t.2 = 0) (k.null hd) i (by omega) (by omega) ?_
    simp only
    rw [hn] at q2
    cases e : other.slots[i] with
    | none => rfl
    | some _ => rw [e] at q2; cases q2
  · intro p
    simp only
    cases S with
    | raw => exact absurd rfl hS
    | shared => rw [hsh rfl]; exact k.uniq p
    | vec => exact (f1 rfl).2 p
  · unfold value
    simp only
    congr 1
    apply List.ext_getElem
    · simp; omega
    · intro i hi hi'
      simp only [List.getElem_map, List.getElem_zip]
      simp only [List.length_map, List.length_zip] at hi hi'
      rw [(qi i (by omega) (by omega)).1]

theorem shallowNew_ok {S : Stor} (hS : S ≠ .raw) {h : Heap} {base : Nat → Nat} {other : Obj} (H : Cnt h base)
    (k : Ok h other) (hs : ∀ p, some p ∈ other.slots → 0 < base p) :
    ∃ o' h', shallowCopy S none other h = .ok (o', h') ∧ Cnt h' (fun p => base p + cnt o'.slots p) ∧ Keeps base h h' ∧
      o'.cls = other.cls ∧ Ok h' o' ∧ value h' o' = value h other ∧ (S = .shared → o'.slots = other.slots) ∧
      (S = .vec → ∀ p, some p ∈ o'.slots → base p = 0) := by
  obtain ⟨ss, h1, e1, c1, k1, l1, q1, f1⟩ := each_ok (f := fun s h => dup S s h) (fun _ : Slot => none)
    (fun s s' b => b = contents h s ∧ s'.isNone = s.isNone ∧ (S = .shared → s' = s)) base h (U := False) (F := S = .vec) False.elim other.slots
    (fun s hsm L h' hb kp H' _ => by
      obtain ⟨s', h2, a1, a2, a3, a4, a5, a6, a7⟩ := dup_ok hS (s := s) (L := L) (H'.congr (fun p => by rw [own_none]; rfl))
        (fun p hp => by have := hs p (hp ▸ hsm); have := hb p; omega)
      refine ⟨s', h2, a1, a2, a3, ⟨?_, a5, a6⟩, a7⟩
      rw [a4]; exact kp.contents (fun p hp => hs p (hp ▸ hsm)))
    base h (fun _ => Nat.le_refl _) (Keeps.refl _ _) (H.congr (fun p => by rw [cnt_none]; rfl)) False.elim
  obtain ⟨s1, s2, s3⟩ := shallow_of (S := S) (base := base) k l1 q1 hS f1
  refine ⟨{ other with slots := ss }, h1, ?_, c1, k1, rfl, s2, s3, s1, fun hv => (f1 hv).1⟩
  show (each _ _ h >>= _) = _
  rw [bind_ok e1]

theorem shallowAssign_ok {S : Stor} (hS : S ≠ .raw) {h : Heap} {base : Nat → Nat} {old : List Slot} {other : Obj}
    (H : Cnt h (fun p => base p + cnt old p)) (k : Ok h other) (hs : ∀ p, some p ∈ other.slots → 0 < base p) (hl : old.length = other.slots.length) :
    ∃ o' h', shallowCopy S (some old) other h = .ok (o', h') ∧ Cnt h' (fun p => base p + cnt o'.slots p) ∧ Keeps base h h' ∧
      o'.cls = other.cls ∧ Ok h' o' ∧ value h' o' = value h other ∧ (S = .shared → o'.slots = other.slots) ∧
      (S = .vec → ∀ p, some p ∈ o'.slots → base p = 0) := by
  obtain ⟨ss, h1, e1, c1, k1, l1, q1, f1⟩ := each_ok (f := fun (t : Slot × Slot) h => assign S t.2 t.1 h) (fun t : Slot × Slot => t.1)
    (fun t s' b => b = contents h t.2 ∧ s'.isNone = t.2.isNone ∧ (S = .shared → s' = t.2)) base h (U := False) (F := S = .vec) False.elim (old.zip other.slots)
    (fun t htm L h' hb kp H' _ => by
      have hsm : t.2 ∈ other.slots := (List.of_mem_zip (a := t.1) (b := t.2) htm).2
      obtain ⟨s', h2, a1, a2, a3, a4, a5, a6, a7⟩ := assign_ok hS (s := t.1) (src := t.2) (L := L) H'
        (fun p hp => by have := hs p (hp ▸ hsm); have := hb p; omega)
      refine ⟨s', h2, a1, a2, a3, ⟨?_, a5, a6⟩, a7⟩
      rw [a4]; exact kp.contents (fun p hp => hs p (hp ▸ hsm)))
    base h (fun _ => Nat.le_refl _) (Keeps.refl _ _) (by rw [map_fst_zip_of_length hl]; exact H) False.elim
  have l2 : ss.length = other.slots.length := by rw [l1]; simp; omega
  obtain ⟨s1, s2, s3⟩ := shallow_of (S := S) (base := base) (h := h) (h' := h1) (ss := ss) k l2 (by
    apply zip_of_getElem (P := fun t => contents h1 t.2 = contents h t.1 ∧ t.2.isNone = t.1.isNone ∧ (S = .shared → t.2 = t.1))
    intro i ha hb
    have := zip_getElem (P := fun (t : (Slot × Slot) × Slot) => contents h1 t.2 = contents h t.1.2 ∧ t.2.isNone = t.1.2.isNone ∧ (S = .shared → t.2 = t.1.2)) q1 i (by simp; omega) hb
    simpa using this) hS f1
  refine ⟨{ other with slots := ss }, h1, ?_, c1, k1, rfl, s2, s3, s1, fun hv => (f1 hv).1⟩
  show (each _ _ h >>= _) = _
  rw [bind_ok e1]

end Pigo.Alias
