import Verif.Spec.Alias
import Mathlib.Tactic.ByContra

/-!
# Counting the owners of blocks
-/

namespace Pigo.Alias

open Pigo.Life (HFault HM Val)

/-- 1 if the slot refers to `p`. -/
def own (s : Slot) (p : Nat) : Nat := if s = some p then 1 else 0

/-- The number of slots that refer to `p`. -/
def cnt : List Slot → Nat → Nat
  | [], _ => 0
  | s :: ss, p => own s p + cnt ss p

/-- The allocated blocks are those with owners, and their counts are right (`L p`: the number of owners of `p`). -/
structure Cnt (h : Heap) (L : Nat → Nat) : Prop where
  free : ∀ p, h.mem p = Option.none → L p = 0
  used : ∀ p b c, h.mem p = Option.some (b, c) → c = L p ∧ 0 < L p
  next : ∀ p, h.next ≤ p → h.mem p = none

def cont (h : Heap) (p : Nat) : Option (List Nat) := (h.mem p).map Prod.fst

/-- The blocks with an owner in `L` keep their elements. -/
def Keeps (L : Nat → Nat) (h h' : Heap) : Prop := ∀ p, 0 < L p → cont h' p = cont h p

def Uniq (L : Nat → Nat) : Prop := ∀ p, L p ≤ 1

theorem Keeps.refl (L : Nat → Nat) (h : Heap) : Keeps L h h := fun _ _ => rfl

theorem Keeps.trans {L : Nat → Nat} {a b c : Heap} (h : Keeps L a b) (h' : Keeps L b c) : Keeps L a c :=
  fun p hp => (h' p hp).trans (h p hp)

theorem Keeps.mono {L L' : Nat → Nat} {a b : Heap} (hL : ∀ p, L p ≤ L' p) (h : Keeps L' a b) : Keeps L a b :=
  fun p hp => h p (Nat.lt_of_lt_of_le hp (hL p))

theorem Cnt.congr {h : Heap} {L L' : Nat → Nat} (H : Cnt h L) (e : ∀ p, L p = L' p) : Cnt h L' := by
  have : L = L' := funext e
  exact this ▸ H

theorem Cnt.isSome {h : Heap} {L : Nat → Nat} (H : Cnt h L) {p : Nat} (hp : 0 < L p) : ∃ b, h.mem p = Option.some (b, L p) := by
  cases e : h.mem p with
  | none => have := H.free p e; omega
  | some bc =>
    obtain ⟨b, c⟩ := bc
    obtain ⟨rfl, _⟩ := H.used p b c e
    exact ⟨b, rfl⟩

theorem own_none (p : Nat) : own none p = 0 := by simp [own]

theorem own_le (s : Slot) (p : Nat) : own s p ≤ 1 := by unfold own; split <;> omega

theorem own_self (p : Nat) : own (some p) p = 1 := by simp [own]

theorem own_pos {s : Slot} {p : Nat} (h : 0 < own s p) : s = some p := by
  unfold own at h; split at h <;> first | assumption | omega

theorem own_ne {q p : Nat} (h : q ≠ p) : own (some q) p = 0 := by
  unfold own; rw [if_neg]; intro e; exact h (Option.some.inj e)

theorem cnt_append (a b : List Slot) (p : Nat) : cnt (a ++ b) p = cnt a p + cnt b p := by
  induction a with
  | nil => simp [cnt]
  | cons s a ih => simp only [List.cons_append, cnt, ih]; omega

theorem cnt_none {α : Type} (l : List α) (p : Nat) : cnt (l.map (fun _ => none)) p = 0 := by
  induction l with
  | nil => rfl
  | cons a l ih => simp [cnt, own_none, ih]

theorem cnt_pos {ss : List Slot} {p : Nat} : 0 < cnt ss p ↔ some p ∈ ss := by
  induction ss with
  | nil => simp [cnt]
  | cons s ss ih =>
    simp only [cnt, List.mem_cons]
    constructor
    · intro h
      by_cases hs : 0 < own s p
      · exact Or.inl (own_pos hs).symm
      · exact Or.inr (ih.mp (by omega))
    · rintro (rfl | h)
      · rw [own_self]; omega
      · have := ih.mpr h; omega

theorem cnt_swap (ss : List Slot) (p : Nat) : cnt (swap01 ss) p = cnt ss p := by
  match ss with
  | [] => rfl
  | [_] => rfl
  | a :: b :: l => simp only [swap01, cnt]; omega

/-! ## Single slots -/

theorem fresh_ok {h : Heap} {L : Nat → Nat} (H : Cnt h L) (b : List Nat) :
    Cnt (fresh b h).2 (fun p => L p + own (fresh b h).1 p) ∧ Keeps L h (fresh b h).2 ∧ contents (fresh b h).2 (fresh b h).1 = b ∧
      (∃ p, (fresh b h).1 = some p ∧ L p = 0) := by
  have hn : h.mem h.next = none := H.next _ (Nat.le_refl _)
  have hL : L h.next = 0 := H.free _ hn
  refine ⟨⟨?_, ?_, ?_⟩, ?_, ?_, h.next, rfl, hL⟩
  · intro p hp
    simp only [fresh] at hp ⊢
    by_cases e : p = h.next
    · rw [if_pos e] at hp; cases hp
    · rw [if_neg e] at hp; rw [own_ne (Ne.symm e), H.free p hp]
  · intro p b' c hp
    simp only [fresh] at hp ⊢
    by_cases e : p = h.next
    · rw [if_pos e] at hp; cases hp; subst e; rw [own_self, hL]; omega
    · rw [if_neg e] at hp; rw [own_ne (Ne.symm e)]; exact H.used p b' c hp
  · intro p hp
    simp only [fresh] at hp ⊢
    rw [if_neg (by omega)]; exact H.next p (by omega)
  · intro p hp
    simp only [cont, fresh]
    rw [if_neg]; rintro rfl; omega
  · simp [contents, fresh]

/-- Replacing a block by one with the same number of owners. -/
theorem set_ok {h : Heap} {L : Nat → Nat} (H : Cnt h L) {p : Nat} {b b' : List Nat} {c : Nat} (e : h.mem p = some (b, c)) :
    Cnt (h.set p (some (b', c))) L ∧ (∀ q, q ≠ p → cont (h.set p (some (b', c))) q = cont h q) ∧ cont (h.set p (some (b', c))) p = some b' := by
  refine ⟨⟨?_, ?_, ?_⟩, ?_, ?_⟩
  · intro q hq
    simp only [Heap.set] at hq
    by_cases eq : q = p
    · rw [if_pos eq] at hq; cases hq
    · rw [if_neg eq] at hq; exact H.free q hq
  · intro q b'' c' hq
    simp only [Heap.set] at hq
    by_cases eq : q = p
    · rw [if_pos eq] at hq; cases hq; subst eq; exact H.used q b c e
    · rw [if_neg eq] at hq; exact H.used q _ _ hq
  · intro q hq
    simp only [Heap.set] at hq ⊢
    by_cases eq : q = p
    · subst eq; have := H.next q hq; rw [e] at this; cases this
    · rw [if_neg eq]; exact H.next q hq
  · intro q hq; simp only [cont, Heap.set]; rw [if_neg hq]
  · simp [cont, Heap.set]

theorem contents_some {h : Heap} {p : Nat} {b : List Nat} {c : Nat} (e : h.mem p = some (b, c)) : contents h (some p) = b := by
  simp [contents, e]

theorem contents_cont {h : Heap} {p : Nat} : contents h (some p) = (cont h p).getD [] := rfl

theorem contents_none (h : Heap) : contents h none = [] := rfl

theorem Keeps.contents {L : Nat → Nat} {h h' : Heap} (k : Keeps L h h') {s : Slot} (hs : ∀ p, s = some p → 0 < L p) : contents h' s = contents h s := by
  cases s with
  | none => rfl
  | some p => rw [contents_cont, contents_cont, k p (hs p rfl)]

theorem drop_ok {S : Stor} (hS : S ≠ .raw) {h : Heap} {L : Nat → Nat} {s : Slot} (H : Cnt h (fun p => L p + own s p)) :
    ∃ h', drop S s h = .ok h' ∧ Cnt h' L ∧ Keeps L h h' := by
  cases s with
  | none =>
    refine ⟨h, ?_, H.congr (fun p => by rw [own_none]; rfl), Keeps.refl _ _⟩
    cases S <;> first | rfl | exact absurd rfl hS
  | some p =>
    obtain ⟨b, e⟩ := H.isSome (p := p) (by simp only [own_self]; omega)
    rw [own_self] at e
    refine ⟨h.set p (if L p + 1 = 1 then none else some (b, L p + 1 - 1)), ?_, ⟨?_, ?_, ?_⟩, ?_⟩
    · cases S with
      | raw => exact absurd rfl hS
      | shared => simp only [drop, Heap.block, e]; rfl
      | vec => simp only [drop, Heap.block, e]; rfl
    · intro q hq
      simp only [Heap.set] at hq
      by_cases eq : q = p
      · rw [if_pos eq] at hq; subst eq
        split at hq
        · omega
        · cases hq
      · rw [if_neg eq] at hq; have := H.free q hq; omega
    · intro q b' c hq
      simp only [Heap.set] at hq
      by_cases eq : q = p
      · rw [if_pos eq] at hq; subst eq
        split at hq
        · cases hq
        · cases hq; omega
      · rw [if_neg eq] at hq; have := H.used q _ _ hq; simp only [own_ne (Ne.symm eq)] at this; exact this
    · intro q hq
      simp only [Heap.set] at hq ⊢
      by_cases eq : q = p
      · subst eq; have := H.next q hq; rw [e] at this; cases this
      · rw [if_neg eq]; exact H.next q hq
    · intro q hq
      simp only [cont, Heap.set]
      by_cases eq : q = p
      · subst eq; rw [if_pos rfl, if_neg (by omega), e]; rfl
      · rw [if_neg eq]

theorem dup_ok {S : Stor} (hS : S ≠ .raw) {h : Heap} {L : Nat → Nat} {s : Slot} (H : Cnt h L) (hs : ∀ p, s = some p → 0 < L p) :
    ∃ s' h', dup S s h = .ok (s', h') ∧ Cnt h' (fun p => L p + own s' p) ∧ Keeps L h h' ∧ contents h' s' = contents h s ∧
      s'.isNone = s.isNone ∧ (S = .shared → s' = s) ∧ (S = .vec → ∀ p, s' = some p → L p = 0) := by
  cases s with
  | none =>
    refine ⟨none, h, ?_, H.congr (fun p => by rw [own_none]; rfl), Keeps.refl _ _, rfl, rfl, fun _ => rfl, fun _ p hp => by cases hp⟩
    cases S <;> first | rfl | exact absurd rfl hS
  | some p =>
    obtain ⟨b, e⟩ := H.isSome (hs p rfl)
    cases S with
    | raw => exact absurd rfl hS
    | shared =>
      refine ⟨some p, h.set p (some (b, L p + 1)), ?_, ⟨?_, ?_, ?_⟩, ?_, ?_, rfl, fun _ => rfl, (by simp)⟩
      · simp only [dup, Heap.block, e]; rfl
      · intro q hq
        simp only [Heap.set] at hq
        by_cases eq : q = p
        · rw [if_pos eq] at hq; cases hq
        · rw [if_neg eq] at hq; rw [own_ne (Ne.symm eq), H.free q hq]
      · intro q b' c hq
        simp only [Heap.set] at hq
        by_cases eq : q = p
        · rw [if_pos eq] at hq; cases hq; subst eq; rw [own_self]; omega
        · rw [if_neg eq] at hq; rw [own_ne (Ne.symm eq)]; exact H.used q _ _ hq
      · intro q hq
        simp only [Heap.set] at hq ⊢
        by_cases eq : q = p
        · subst eq; have := H.next q hq; rw [e] at this; cases this
        · rw [if_neg eq]; exact H.next q hq
      · intro q _
        simp only [cont, Heap.set]
        by_cases eq : q = p
        · subst eq; rw [if_pos rfl, e]; rfl
        · rw [if_neg eq]
      · simp [contents, Heap.set, e]
    | vec =>
      obtain ⟨h1, h2, h3, q, hq, hq'⟩ := fresh_ok H b
      refine ⟨(fresh b h).1, (fresh b h).2, ?_, h1, h2, ?_, ?_, (by simp), ?_⟩
      · simp only [dup, Heap.block, e]; rfl
      · rw [h3, contents_some e]
      · rw [hq]; rfl
      · intro _ r hr; rw [hq] at hr; cases hr; exact hq'

theorem uniq_add {L : Nat → Nat} {s : Slot} (hL : Uniq L) (h : ∀ p, s = some p → L p = 0) : Uniq (fun p => L p + own s p) := by
  intro p
  by_cases hp : 0 < own s p
  · have := h p (own_pos hp); have := own_le s p; simp only; omega
  · have := hL p; simp only; omega

theorem assign_ok {S : Stor} (hS : S ≠ .raw) {h : Heap} {L : Nat → Nat} {s src : Slot} (H : Cnt h (fun p => L p + own s p))
    (hs : ∀ p, src = some p → 0 < L p) :
    ∃ s' h', assign S src s h = .ok (s', h') ∧ Cnt h' (fun p => L p + own s' p) ∧ Keeps L h h' ∧ contents h' s' = contents h src ∧
      s'.isNone = src.isNone ∧ (S = .shared → s' = src) ∧ (S = .vec → ∀ p, s' = some p → L p = 0) := by
  obtain ⟨s', h1, e, c1, k1, k2, k3, k4, k5⟩ := dup_ok hS (s := src) H (fun p hp => by have := hs p hp; omega)
  have c2 : Cnt h1 (fun p => (fun p => L p + own s' p) p + own s p) := c1.congr (fun p => by simp only; omega)
  obtain ⟨h2, e2, c3, k6⟩ := drop_ok hS c2
  refine ⟨s', h2, ?_, c3, ?_, ?_, k3, k4, ?_⟩
  · cases S with
    | raw => exact absurd rfl hS
    | shared => simp only [assign, e]; show (drop _ _ _ >>= _) = _; rw [e2]; rfl
    | vec => simp only [assign, e]; show (drop _ _ _ >>= _) = _; rw [e2]; rfl
  · exact (k1.mono (fun p => by omega)).trans (k6.mono (fun p => by omega))
  · rw [← k2]
    exact k6.contents (fun p hp => by subst hp; rw [own_self]; omega)
  · intro hv p hp
    have := k5 hv p hp
    omega

theorem allocate_ok {S : Stor} (hS : S ≠ .raw) {h : Heap} {L : Nat → Nat} {s : Slot} (junk : Nat → Nat) (len : Nat)
    (H : Cnt h (fun p => L p + own s p)) (hu : S = .vec → ∀ p, s = some p → L p = 0) :
    ∃ s' h', allocate S junk len s h = .ok (s', h') ∧ Cnt h' (fun p => L p + own s' p) ∧ Keeps L h h' ∧ (contents h' s').length = len ∧
      ∃ p, s' = some p ∧ L p = 0 := by
  have key : ∀ b : List Nat, b.length = len → ∃ h', (drop .shared s (fresh b h).2 = .ok h') ∧ Cnt h' (fun p => L p + own (fresh b h).1 p) ∧
      Keeps L h h' ∧ (contents h' (fresh b h).1).length = len ∧ ∃ p, (fresh b h).1 = some p ∧ L p = 0 := by
    intro b hb
    obtain ⟨h1, h2, h3, q, hq, hq'⟩ := fresh_ok H b
    have c2 : Cnt (fresh b h).2 (fun p => (fun p => L p + own (fresh b h).1 p) p + own s p) := h1.congr (fun p => by simp only; omega)
    obtain ⟨h2', e2, c3, k6⟩ := drop_ok (S := .shared) (by simp) c2
    refine ⟨h2', e2, c3, (h2.mono (fun p => by omega)).trans (k6.mono (fun p => by omega)), ?_, q, hq, by omega⟩
    rw [k6.contents (fun p hp => by rw [hp, own_self]; omega), h3, hb]
  cases S with
  | raw => exact absurd rfl hS
  | shared =>
    obtain ⟨h', e, r⟩ := key (alloc junk len) (by simp [alloc])
    refine ⟨_, h', ?_, r⟩
    simp only [allocate, e]; rfl
  | vec =>
    cases s with
    | none =>
      obtain ⟨h', e, r⟩ := key (resized [] len) (by simp [resized])
      simp only [drop] at e
      cases e
      exact ⟨_, _, rfl, r⟩
    | some p =>
      obtain ⟨b, e⟩ := H.isSome (p := p) (by simp only [own_self]; omega)
      rw [own_self] at e
      obtain ⟨c1, c2, c3⟩ := set_ok H (b' := resized b len) e
      refine ⟨some p, h.set p (some (resized b len, L p + 1)), ?_, c1, ?_, ?_, p, rfl, hu rfl p rfl⟩
      · simp only [allocate, Heap.block, e]; rfl
      · intro q hq
        refine c2 q ?_
        rintro rfl
        have := hu rfl q rfl; omega
      · rw [contents_cont, c3]; simp [resized]; omega

theorem put_ok {h : Heap} {L : Nat → Nat} {s : Slot} {a : List Nat} (H : Cnt h L) (hs : ∀ p, s = some p → 0 < L p)
    (ha : a.length ≤ (contents h s).length) :
    ∃ h', put s a h = .ok h' ∧ Cnt h' L ∧ (∀ q, s ≠ some q → cont h' q = cont h q) ∧ contents h' s = a ++ (contents h s).drop a.length := by
  by_cases e : a = []
  · subst e; exact ⟨h, by simp [put], H, fun _ _ => rfl, by simp⟩
  · cases s with
    | none => rw [contents_none] at ha; cases a <;> simp_all
    | some p =>
      obtain ⟨b, hb⟩ := H.isSome (hs p rfl)
      rw [contents_some hb] at ha ⊢
      obtain ⟨c1, c2, c3⟩ := set_ok H (b' := a ++ b.drop a.length) hb
      refine ⟨_, ?_, c1, fun q hq => c2 q (fun hc => hq (by rw [hc])), ?_⟩
      · simp only [put, if_neg e, Heap.block, hb]
        exact if_pos ha
      · rw [contents_cont, c3]; rfl

theorem get_ok {h : Heap} {L : Nat → Nat} {s : Slot} {len : Nat} (H : Cnt h L) (hs : ∀ p, s = some p → 0 < L p)
    (ha : len ≤ (contents h s).length) : get s len h = .ok ((contents h s).take len) := by
  by_cases e : len = 0
  · subst e; simp [get]
  · cases s with
    | none => rw [contents_none] at ha; simp at ha; exact absurd ha e
    | some p =>
      obtain ⟨b, hb⟩ := H.isSome (hs p rfl)
      rw [contents_some hb] at ha ⊢
      simp only [get, if_neg e, Heap.block, hb]
      exact if_pos ha

end Pigo.Alias
