import Verif.Base.Interleave

/-!
# Stores to one array

Several threads store to disjoint positions of one array; the result does not depend on the order.
-/

namespace Pigo

/-- A store `a[i] = v`; outside of the array it is a fault. -/
def store {α : Type} (a : List α) (i : Nat) (v : α) : M (List α) :=
  if i < a.length then .ok (a.set i v) else .error .oob

/-- A store `a[p.1] = p.2` as a step of a thread. -/
def storeAct {α : Type} (p : Nat × α) (a : List α) : M (List α) := store a p.1 p.2

/-- The stores of the values `vs` to the positions `p, p+1, …`. -/
def blockActs {α : Type} : Nat → List α → List (Nat × α)
  | _, [] => []
  | p, v :: vs => (p, v) :: blockActs (p + 1) vs

variable {α : Type}

@[simp] theorem blockActs_length (p : Nat) (vs : List α) : (blockActs p vs).length = vs.length := by
  induction vs generalizing p with
  | nil => rfl
  | cons v vs ih => simp [blockActs, ih]

theorem blockActs_append (p : Nat) (a b : List α) :
    blockActs p (a ++ b) = blockActs p a ++ blockActs (p + a.length) b := by
  induction a generalizing p with
  | nil => simp [blockActs]
  | cons v a ih => simp only [List.cons_append, blockActs, ih, List.length_cons]; rw [Nat.add_right_comm, Nat.add_assoc]

theorem mem_blockActs {p : Nat} {vs : List α} {q : Nat × α} :
    q ∈ blockActs p vs ↔ ∃ k, q.1 = p + k ∧ vs[k]? = some q.2 := by
  induction vs generalizing p with
  | nil => simp [blockActs]
  | cons v vs ih =>
    simp only [blockActs, List.mem_cons, ih]
    constructor
    · rintro (rfl | ⟨k, h1, h2⟩)
      · exact ⟨0, rfl, rfl⟩
      · exact ⟨k + 1, by omega, by simpa using h2⟩
    · rintro ⟨k, h1, h2⟩
      cases k with
      | zero =>
        simp only [List.getElem?_cons_zero] at h2
        injection h2 with h2
        exact .inl (Prod.ext h1 h2.symm)
      | succ k => exact .inr ⟨k, by omega, by simpa using h2⟩

theorem blockActs_nodup (p : Nat) (vs : List α) : ((blockActs p vs).map Prod.fst).Nodup := by
  induction vs generalizing p with
  | nil => simp [blockActs]
  | cons v vs ih =>
    simp only [blockActs, List.map_cons, List.nodup_cons]
    refine ⟨?_, ih _⟩
    intro h
    obtain ⟨q, hq, h1⟩ := List.mem_map.mp h
    obtain ⟨k, h2, _⟩ := mem_blockActs.mp hq
    omega

/-- Stores to different positions, in any order. -/
theorem run_stores (sched : List (Nat × α)) : ∀ (a : List α), (sched.map Prod.fst).Nodup →
    (∀ q ∈ sched, q.1 < a.length) →
    ∃ a', runActs storeAct sched a = .ok a' ∧ a'.length = a.length ∧
      (∀ q ∈ sched, a'[q.1]? = some q.2) ∧ (∀ i, i ∉ sched.map Prod.fst → a'[i]? = a[i]?) := by
  induction sched with
  | nil => intro a _ _; exact ⟨a, rfl, rfl, by simp, fun _ _ => rfl⟩
  | cons q sched ih =>
    intro a hn hb
    rw [List.map_cons, List.nodup_cons] at hn
    have hq := hb q (List.mem_cons_self ..)
    obtain ⟨a', h1, h2, h3, h4⟩ := ih (a.set q.1 q.2) hn.2
      (fun x hx => by rw [List.length_set]; exact hb x (List.mem_cons_of_mem _ hx))
    refine ⟨a', ?_, by rw [h2, List.length_set], ?_, ?_⟩
    · unfold runActs
      rw [show storeAct q a = .ok (a.set q.1 q.2) from if_pos hq, ok_bind, h1]
    · intro x hx
      rcases List.mem_cons.mp hx with rfl | hx
      · rw [h4 _ hn.1, List.getElem?_set_self hq]
      · exact h3 x hx
    · intro i hi
      rw [List.map_cons, List.mem_cons, not_or] at hi
      rw [h4 i hi.2, List.getElem?_set_ne (fun h => hi.1 h.symm)]

/-- Any order of the stores of a block. -/
theorem run_block {sched : List (Nat × α)} {p : Nat} {vs : List α} (hp : sched.Perm (blockActs p vs)) (a : List α)
    (hb : p + vs.length ≤ a.length) :
    runActs storeAct sched a = .ok (a.take p ++ vs ++ a.drop (p + vs.length)) := by
  have hn : (sched.map Prod.fst).Nodup := (hp.map Prod.fst).nodup_iff.mpr (blockActs_nodup p vs)
  have hmem : ∀ q, q ∈ sched ↔ ∃ k, q.1 = p + k ∧ vs[k]? = some q.2 := fun q => hp.mem_iff.trans mem_blockActs
  obtain ⟨a', h1, h2, h3, h4⟩ := run_stores sched a hn (by
    intro q hq
    obtain ⟨k, hk, hv⟩ := (hmem q).mp hq
    have := (List.getElem?_eq_some_iff.mp hv).1
    omega)
  rw [h1]
  congr 1
  apply List.ext_getElem?
  intro i
  by_cases hi : p ≤ i ∧ i < p + vs.length
  · have hv : vs[i - p]? = some (vs[i - p]'(by omega)) := List.getElem?_eq_getElem _
    rw [h3 (i, vs[i - p]'(by omega)) ((hmem _).mpr ⟨i - p, by simp only; omega, hv⟩)]
    rw [List.append_assoc, List.getElem?_append_right (by rw [List.length_take]; omega), List.length_take,
      Nat.min_eq_left (by omega), List.getElem?_append_left (by omega), hv]
  · rw [h4 i (by
      intro hc
      obtain ⟨q, hq, rfl⟩ := List.mem_map.mp hc
      obtain ⟨k, hk, hv⟩ := (hmem q).mp hq
      have := (List.getElem?_eq_some_iff.mp hv).1
      omega)]
    by_cases h : i < p
    · rw [List.append_assoc, List.getElem?_append_left (by rw [List.length_take]; omega), List.getElem?_take_of_lt h]
    · rw [List.append_assoc, List.getElem?_append_right (by rw [List.length_take]; omega), List.length_take,
        Nat.min_eq_left (by omega), List.getElem?_append_right (by omega), List.getElem?_drop]
      congr 1; omega

/-- Threads that store consecutive blocks. -/
def blockThreads : Nat → List (List α) → List (List (Nat × α))
  | _, [] => []
  | p, g :: gs => blockActs p g :: blockThreads (p + g.length) gs

theorem blockThreads_flatten (p : Nat) (gs : List (List α)) : (blockThreads p gs).flatten = blockActs p gs.flatten := by
  induction gs generalizing p with
  | nil => rfl
  | cons g gs ih => simp only [blockThreads, List.flatten_cons, ih, blockActs_append]

/-- All interleavings of threads storing consecutive blocks fill the array with the concatenation. -/
theorem run_blockThreads {gs : List (List α)} {sched : List (Nat × α)} {p : Nat}
    (h : Interleave (blockThreads p gs) sched) (a : List α) (hb : p + gs.flatten.length ≤ a.length) :
    runActs storeAct sched a = .ok (a.take p ++ gs.flatten ++ a.drop (p + gs.flatten.length)) :=
  run_block (by have := h.perm; rwa [blockThreads_flatten] at this) a hb

/-- The same, filling an array exactly. -/
theorem run_blockThreads_full {gs : List (List α)} {sched : List (Nat × α)}
    (h : Interleave (blockThreads 0 gs) sched) (a : List α) (hb : gs.flatten.length = a.length) :
    runActs storeAct sched a = .ok gs.flatten := by
  rw [run_blockThreads h a (by omega), Nat.zero_add, hb, List.drop_length]
  simp

end Pigo
