import Verif.Lemmas.GraphAny2

/-!
# `read_graph_` on arbitrary bytes: execution
-/

namespace Pigo

variable {W : Type} {μ : Mapping} {e : Nat}

/-- Stores within bounds, in any order. -/
theorem run_gstores {n m : Nat} : ∀ (l : List GAct) (o ep : List Nat), o.length = n + 1 → ep.length = m →
    (∀ i v, .inl (i, v) ∈ l → i ≤ n ∧ v ≤ m) → (∀ i v, .inr (i, v) ∈ l → i < m) →
    ∃ o' ep', runActs (sumStep storeAct storeAct) l (o, ep) = .ok (o', ep') ∧ o'.length = n + 1 ∧ ep'.length = m ∧
      ∀ i, (o.getD i 0 ≤ m ∨ ∃ v, .inl (i, v) ∈ l) → o'.getD i 0 ≤ m := by
  intro l
  induction l with
  | nil =>
    intro o ep ho he _ _
    exact ⟨o, ep, rfl, ho, he, fun i h => h.elim id (fun ⟨v, h⟩ => by cases h)⟩
  | cons x l ih =>
    intro o ep ho he h1 h2
    cases x with
    | inl p =>
      obtain ⟨i, v⟩ := p
      have hb := h1 i v (by simp)
      have hst : sumStep storeAct storeAct (.inl (i, v)) (o, ep) = .ok (o.set i v, ep) := by
        simp only [sumStep, storeAct, store, if_pos (show i < o.length by omega)]; rfl
      obtain ⟨o', ep', g1, g2, g3, g4⟩ := ih (o.set i v) ep (by simpa using ho) he
        (fun j w h => h1 j w (List.mem_cons_of_mem _ h)) (fun j w h => h2 j w (List.mem_cons_of_mem _ h))
      refine ⟨o', ep', by rw [runActs, hst, ok_bind, g1], g2, g3, ?_⟩
      intro j hj
      by_cases hji : i = j
      · subst hji
        apply g4 i (.inl _)
        rw [List.getD_eq_getElem?_getD, List.getElem?_set_self (by omega)]
        exact hb.2
      · apply g4 j
        rcases hj with h | ⟨w, h⟩
        · left; rw [List.getD_eq_getElem?_getD, List.getElem?_set_ne hji, ← List.getD_eq_getElem?_getD]; exact h
        · right
          rcases List.mem_cons.mp h with h | h
          · injection h with h; injection h with h _; exact absurd h.symm hji
          · exact ⟨w, h⟩
    | inr p =>
      obtain ⟨i, v⟩ := p
      have hb := h2 i v (by simp)
      have hst : sumStep storeAct storeAct (.inr (i, v)) (o, ep) = .ok (o, ep.set i v) := by
        simp only [sumStep, storeAct, store, if_pos (show i < ep.length by omega)]; rfl
      obtain ⟨o', ep', g1, g2, g3, g4⟩ := ih o (ep.set i v) ho (by simpa using he)
        (fun j w h => h1 j w (List.mem_cons_of_mem _ h)) (fun j w h => h2 j w (List.mem_cons_of_mem _ h))
      refine ⟨o', ep', by rw [runActs, hst, ok_bind, g1], g2, g3, ?_⟩
      intro j hj
      apply g4 j
      rcases hj with h | ⟨w, h⟩
      · exact .inl h
      · rcases List.mem_cons.mp h with h | h
        · cases h
        · exact .inr ⟨w, h⟩

theorem graphInit_any {base n m : Nat} (hb : base ≤ 1) (hn : base ≤ n) {o : List Nat} (ho : o.length = n + 1) :
    ∃ o', graphInit base n m o = .ok o' ∧ o'.length = n + 1 ∧ ∀ i, i ≤ base ∨ i = n → o'.getD i 0 ≤ m := by
  unfold graphInit
  by_cases h1 : base = 1
  · subst h1
    have hr : runActs storeAct (if (1 : Nat) = 1 then [(0, 0), (1, 0)] else [(0, 0)]) o = .ok ((o.set 0 0).set 1 0) := by
      simp only [if_pos, runActs, storeAct, store]
      rw [if_pos (by omega), ok_bind, if_pos (by simp; omega), ok_bind]
    rw [hr, ok_bind, store, if_pos (by simp; omega)]
    refine ⟨_, rfl, by simpa using ho, ?_⟩
    intro i hi
    rw [List.getD_eq_getElem?_getD]
    by_cases hin : n = i
    · subst hin; rw [List.getElem?_set_self (by simp; omega)]; exact Nat.le_refl _
    · rw [List.getElem?_set_ne hin]
      by_cases hi1 : 1 = i
      · subst hi1; rw [List.getElem?_set_self (by simp; omega)]; exact Nat.zero_le _
      · rw [List.getElem?_set_ne hi1]
        have : i = 0 := by omega
        subst this
        rw [List.getElem?_set_self (by omega)]; exact Nat.zero_le _
  · have h0 : base = 0 := by omega
    subst h0
    have hr : runActs storeAct (if (0 : Nat) = 1 then [(0, 0), (1, 0)] else [(0, 0)]) o = .ok (o.set 0 0) := by
      rw [if_neg (by omega)]
      simp only [runActs, storeAct, store]
      rw [if_pos (by omega), ok_bind]
    rw [hr, ok_bind, store, if_pos (by simp; omega)]
    refine ⟨_, rfl, by simpa using ho, ?_⟩
    intro i hi
    rw [List.getD_eq_getElem?_getD]
    by_cases hin : n = i
    · subst hin; rw [List.getElem?_set_self (by simp; omega)]; exact Nat.le_refl _
    · rw [List.getElem?_set_ne hin]
      have : i = 0 := by omega
      subst this
      rw [List.getElem?_set_self (by omega)]; exact Nat.zero_le _

/-- Every outcome, given the shape of the plan. -/
theorem readGraph_any {lw ow T L : Nat} {r : Reader} {p : GPlan} (hp : graphPlan μ lw ow T r = .ok p) (ok : PlanOk lw ow T L p)
    (hlw : T * L + 2 < 2 ^ lw) (out : M (Csr W)) (h : (readGraph lw ow T μ r).Out out) :
    ∃ o ep : List Nat, out = graphFinish lw ow p o ep ∧ o.length = p.n + 1 ∧ ep.length = p.m ∧ ∀ i, i ≤ p.n → o.getD i 0 ≤ p.m := by
  have hn := ok.n_le
  have hmod : plusOne lw p.n = p.n + 1 := by rw [plusOne, Nat.mod_eq_of_lt (by omega), ite_self]
  obtain ⟨o1, rfl, h⟩ := h
  rw [hp] at h
  obtain ⟨_, ⟨jo, _, rfl⟩, _, ⟨je, _, rfl⟩, o2, rfl, h⟩ := h
  rw [hmod] at h
  obtain ⟨o, g1, g2, g3⟩ := graphInit_any (m := p.m) ok.base ok.n_ge (o := alloc jo (p.n + 1)) (by simp [alloc])
  rw [g1] at h
  obtain ⟨_, ⟨sched, hi, rfl⟩, h⟩ := h
  have hperm := hi.perm
  have hmem : ∀ x, x ∈ sched → ∃ l ∈ p.threads, x ∈ l := fun x hx => List.mem_flatten.mp (hperm.mem_iff.mp hx)
  obtain ⟨o', ep', k1, k2, k3, k4⟩ := run_gstores (m := p.m) sched o (alloc je p.m) g2 (by simp [alloc])
    (fun i v hx => by obtain ⟨l, hl, hx⟩ := hmem _ hx; exact ok.offs l hl i v hx)
    (fun i v hx => by obtain ⟨l, hl, hx⟩ := hmem _ hx; exact (ok.eps l hl i v hx).1)
  rw [k1] at h
  refine ⟨o', ep', h, k2, k3, fun i hi2 => k4 i ?_⟩
  by_cases hb : i ≤ p.base
  · exact .inl (g3 i (.inl hb))
  · obtain ⟨l, hl, v, hv⟩ := ok.all i (by omega) hi2
    exact .inr ⟨v, hperm.mem_iff.mpr (List.mem_flatten.mpr ⟨l, hl, hv⟩)⟩

end Pigo
