import Verif.Lemmas.Crash
import Verif.Spec.Crash
import Verif.Lemmas.WriteTensor

/-!
# Interrupted text writers
-/

namespace Pigo

open Spec

variable {W : Type}

theorem tornText_store {new s : List Byte} (h : TornText new s) {q : Nat × Byte} (hq : new[q.1]? = some q.2 ∨ q.2 = 0) {s' : List Byte}
    (hs : storeAct q s = .ok s') : TornText new s' := by
  have key : storeAct q s = if q.1 < s.length then .ok (s.set q.1 q.2) else .error .oob := rfl
  rw [key] at hs
  split at hs
  · rename_i hlt
    cases hs
    refine ⟨by rw [List.length_set]; exact h.1, fun i => ?_⟩
    rw [List.getElem?_set]
    split
    · rename_i hi
      subst hi
      rcases hq with hq | hq
      · exact .inl hq.symm
      · exact .inr (.inr (by rw [hq]))
    · exact h.2 i
  · cases hs

theorem tornText_acts {new : List Byte} : ∀ (acts : List (Nat × Byte)) (s s' : List Byte), TornText new s →
    (∀ q ∈ acts, new[q.1]? = some q.2 ∨ q.2 = 0) → runActs storeAct acts s = .ok s' → TornText new s'
  | [], s, s', h, _, hr => by cases hr; exact h
  | a :: acts, s, s', h, hq, hr => by
    simp only [runActs] at hr
    cases hs : storeAct a s with
    | error f => rw [hs] at hr; cases hr
    | ok s1 =>
      rw [hs] at hr
      exact tornText_acts acts s1 s' (tornText_store h (hq a (List.mem_cons_self ..)) hs) (fun q h => hq q (List.mem_cons_of_mem _ h)) hr

variable {size : Nat → M Nat} {ascii : Nat → Nat → M (List (Nat × Byte) × Nat)} {line : Nat → List Byte}

/-- The contents of the file at every moment of the two passes. -/
theorem twoPassO_states {old : List Byte} {its : List (List Nat)} (h : ∀ e ∈ its.flatten, LineOk size ascii (line e) e) (hne : its.flatten.flatMap line ≠ []) :
    (∀ s, (twoPassO old size ascii its its).seen s → s = old ∨ s = [] ∨ TornText (its.flatten.flatMap line) s) ∧
    (twoPassO old size ascii its its).seen [] ∧ (twoPassO old size ascii its its).seen (blank (its.flatten.flatMap line).length) := by
  have h' : ∀ l ∈ its, ∀ e ∈ l, LineOk size ascii (line e) e := fun l hl e he => h e (List.mem_flatten.mpr ⟨l, hl, he⟩)
  have hsz : mapE (sizeLoopE size) its = .ok (its.map (fun l => (l.flatMap line).length)) := mapE_mem_ok (fun l hl => sizeLoopE_ok (h' l hl))
  have hsum : (its.map (fun l => (l.flatMap line).length)).sum = (its.flatten.flatMap line).length := by
    rw [← flatten_flatMap, List.length_flatten, List.map_map]; rfl
  have htot := total_ok (its.map (fun l => (l.flatMap line).length)) 0
  rw [List.length_map, hsum, Nat.zero_add] at htot
  have hpos := List.length_pos_iff.mpr hne
  obtain ⟨threads, h1, h2⟩ := threads_ok h' 0
  have hblank : TornText (its.flatten.flatMap line) (blank (its.flatten.flatMap line).length) := ⟨blank_length hpos, fun i => .inr (.inl rfl)⟩
  unfold twoPassO
  rw [hsz]
  simp only [posOffsets]
  refine ⟨?_, .inr ⟨_, rfl, ?_⟩, .inr ⟨_, rfl, ?_⟩⟩
  · rintro s (hs | ⟨a, ha, hs⟩)
    · exact hs.elim
    cases ha
    dsimp only at hs
    rw [htot] at hs
    rcases hs with hs | ⟨f, hf, hs⟩
    · rcases hs with hs | ⟨_, hs | hs⟩
      · exact .inl hs
      · exact .inr (.inl hs)
      · right; right
        have : s = blank (its.flatten.flatMap line).length := hs
        rw [this]; exact hblank
    have hf' : f = ⟨0, blank (its.flatten.flatMap line).length⟩ := by
      have : Except.ok f = openW (its.flatten.flatMap line).length := hf
      unfold openW at this
      rw [if_neg (by omega)] at this
      cases this
      rfl
    subst hf'
    rcases hs with hs | ⟨th, hth, hs⟩
    · exact hs.elim
    have hth' : (Except.ok th : M _) = Except.ok threads := by rw [← h1]; exact hth
    cases hth'
    obtain ⟨sched, k, hi, hk⟩ := hs
    right; right
    refine tornText_acts _ _ _ hblank (fun q hq => ?_) hk
    have hq' := hi.perm.mem_iff.mp (List.mem_of_mem_take hq)
    have := h2.flat.final q hq'
    rwa [flatten_flatMap, Nat.sub_zero] at this
  · dsimp only
    rw [htot]
    exact .inl (.inr ⟨hpos, .inl rfl⟩)
  · dsimp only
    rw [htot]
    exact .inl (.inr ⟨hpos, .inr rfl⟩)

end Pigo
