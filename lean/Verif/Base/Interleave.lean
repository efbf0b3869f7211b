import Verif.Base.Basic

/-!
# Interleavings of threads

A parallel region is a list of threads, each a list of atomic actions; an execution is any
interleaving.  If actions of different threads commute, every interleaving has the effect of
running the threads one after the other.
-/

namespace Pigo

/-- `Interleave ls s`: `s` is obtained by repeatedly taking the next action of some thread of `ls`
until all threads are finished. -/
inductive Interleave {α : Type _} : List (List α) → List α → Prop
  | done {ls : List (List α)} (h : ∀ l ∈ ls, l = []) : Interleave ls []
  | step {ls : List (List α)} {i : Nat} {a : α} {l s : List α}
      (h : ls[i]? = some (a :: l)) (t : Interleave (ls.set i l) s) : Interleave ls (a :: s)

variable {α S : Type _}

/-- Run a list of actions. -/
def runActs (step : α → S → M S) : List α → S → M S
  | [], s => .ok s
  | a :: l, s => (step a s) >>= fun s' => runActs step l s'

theorem runActs_append (step : α → S → M S) (l l' : List α) (s : S) :
    runActs step (l ++ l') s = runActs step l s >>= runActs step l' := by
  induction l generalizing s with
  | nil => rfl
  | cons a l ih =>
    simp only [List.cons_append, runActs]
    cases step a s with
    | error f => rfl
    | ok s' => simp [ih]

/-- Two actions can be swapped in every state. -/
def Commute (step : α → S → M S) (a b : α) : Prop :=
  ∀ s, (step a s >>= step b) = (step b s >>= step a)

theorem runActs_move (step : α → S → M S) (a : α) (l : List α)
    (h : ∀ b ∈ l, Commute step a b) (s : S) :
    (step a s >>= runActs step l) = (runActs step l s >>= step a) := by
  induction l generalizing s with
  | nil => simp only [runActs, ok_bind]; cases step a s <;> rfl
  | cons b l ih =>
    have hb := h b (List.mem_cons_self ..) s
    have ih' := ih (fun c hc => h c (List.mem_cons_of_mem _ hc))
    calc (step a s >>= runActs step (b :: l))
        = ((step a s >>= step b) >>= runActs step l) := by
          cases step a s <;> rfl
      _ = ((step b s >>= step a) >>= runActs step l) := by rw [hb]
      _ = (step b s >>= fun s' => (step a s' >>= runActs step l)) := by
          cases step b s <;> rfl
      _ = (step b s >>= fun s' => (runActs step l s' >>= step a)) := by
          congr 1; funext s'; exact ih' s'
      _ = (runActs step (b :: l) s >>= step a) := by
          simp only [runActs]; cases step b s <;> rfl

theorem flatten_set_cons (ls : List (List α)) (i : Nat) (a : α) (l : List α)
    (h : ls[i]? = some (a :: l)) :
    ls.flatten = (ls.take i).flatten ++ (a :: l) ++ (ls.drop (i+1)).flatten ∧
    (ls.set i l).flatten = (ls.take i).flatten ++ l ++ (ls.drop (i+1)).flatten := by
  obtain ⟨hi, hget⟩ := List.getElem?_eq_some_iff.mp h
  constructor
  · conv => lhs; rw [← List.take_append_drop i ls, List.drop_eq_getElem_cons hi, hget]
    simp
  · rw [List.set_eq_take_append_cons_drop, if_pos hi]
    simp

theorem interleave_eq_flatten (step : α → S → M S) {ls : List (List α)} {sched : List α}
    (hi : Interleave ls sched)
    (hc : ∀ i j : Nat, i < j → ∀ li lj, ls[i]? = some li → ls[j]? = some lj →
      ∀ a ∈ li, ∀ b ∈ lj, Commute step b a) (s : S) :
    runActs step sched s = runActs step ls.flatten s := by
  induction hi generalizing s with
  | done h =>
    have : ∀ ls : List (List α), (∀ l ∈ ls, l = []) → ls.flatten = [] := by
      intro ls h; simpa using h
    rw [this _ h]
  | @step ls i a l sch h t ih =>
    obtain ⟨h1, h2⟩ := flatten_set_cons ls i a l h
    have hlt : i < ls.length := (List.getElem?_eq_some_iff.mp h).1
    have hc' : ∀ i' j : Nat, i' < j → ∀ li lj, (ls.set i l)[i']? = some li →
        (ls.set i l)[j]? = some lj → ∀ a ∈ li, ∀ b ∈ lj, Commute step b a := by
      intro i' j hij li lj hli hlj x hx y hy
      have hx' : ∃ li', ls[i']? = some li' ∧ x ∈ li' := by
        by_cases e : i = i'
        · subst e
          rw [List.getElem?_set_self hlt] at hli
          injection hli with hli; subst hli
          exact ⟨_, h, List.mem_cons_of_mem _ hx⟩
        · rw [List.getElem?_set_ne e] at hli; exact ⟨_, hli, hx⟩
      have hy' : ∃ lj', ls[j]? = some lj' ∧ y ∈ lj' := by
        by_cases e : i = j
        · subst e
          rw [List.getElem?_set_self hlt] at hlj
          injection hlj with hlj; subst hlj
          exact ⟨_, h, List.mem_cons_of_mem _ hy⟩
        · rw [List.getElem?_set_ne e] at hlj; exact ⟨_, hlj, hy⟩
      obtain ⟨_, p1, p2⟩ := hx'
      obtain ⟨_, q1, q2⟩ := hy'
      exact hc i' j hij _ _ p1 q1 x p2 y q2
    have hmv : ∀ b ∈ (ls.take i).flatten, Commute step a b := by
      intro b hb
      obtain ⟨l0, hl0, hb0⟩ := List.mem_flatten.mp hb
      obtain ⟨k, hk, hget⟩ := List.mem_iff_getElem.mp hl0
      simp at hk
      have hk' : ls[k]? = some l0 := by
        rw [List.getElem_take] at hget
        exact List.getElem?_eq_some_iff.mpr ⟨by omega, hget⟩
      exact hc k i (by omega) l0 (a :: l) hk' h b hb0 a (List.mem_cons_self ..)
    calc runActs step (a :: sch) s
        = (step a s >>= runActs step sch) := rfl
      _ = (step a s >>= runActs step (ls.set i l).flatten) := by
          congr 1; funext s'; exact ih hc' s'
      _ = ((step a s >>= runActs step (ls.take i).flatten) >>=
            runActs step (l ++ (ls.drop (i+1)).flatten)) := by
          rw [h2, List.append_assoc]
          cases step a s with
          | error f => rfl
          | ok s' => simp only [ok_bind]; rw [runActs_append]
      _ = ((runActs step (ls.take i).flatten s >>= step a) >>=
            runActs step (l ++ (ls.drop (i+1)).flatten)) := by
          rw [runActs_move step a _ hmv]
      _ = runActs step ls.flatten s := by
          rw [h1, List.append_assoc, runActs_append]
          cases runActs step (ls.take i).flatten s <;> rfl

/-- Running one thread after the other is an interleaving. -/
theorem interleave_flatten : ∀ (ls : List (List α)), Interleave ls ls.flatten := by
  suffices h : ∀ (n : Nat) (ls : List (List α)), ls.flatten.length = n → Interleave ls ls.flatten from
    fun ls => h _ ls rfl
  intro n
  induction n with
  | zero =>
    intro ls h
    have h' : ls.flatten = [] := List.length_eq_zero_iff.mp h
    rw [h']
    exact .done (by simpa using h')
  | succ n ih =>
    intro ls h
    have hne : ∃ i a l, ls[i]? = some (a :: l) ∧ (ls.take i).flatten = [] := by
      clear ih
      induction ls with
      | nil => simp at h
      | cons l0 ls ih2 =>
        cases l0 with
        | cons a l => exact ⟨0, a, l, rfl, rfl⟩
        | nil =>
          obtain ⟨i, a, l, h1, h2⟩ := ih2 (by simpa using h)
          exact ⟨i+1, a, l, by simpa using h1, by simpa using h2⟩
    obtain ⟨i, a, l, h1, h2⟩ := hne
    obtain ⟨e1, e2⟩ := flatten_set_cons ls i a l h1
    rw [h2] at e1 e2
    have : ls.flatten = a :: (ls.set i l).flatten := by rw [e1, e2]; simp
    rw [this]
    apply Interleave.step h1
    apply ih
    rw [this] at h
    simpa using h

/-- An interleaving contains exactly the actions of the threads. -/
theorem Interleave.perm {ls : List (List α)} {s : List α} (h : Interleave ls s) :
    s.Perm ls.flatten := by
  induction h with
  | done h => 
    have : ∀ ls : List (List α), (∀ l ∈ ls, l = []) → ls.flatten = [] := by
      intro ls h; simpa using h
    rw [this _ h]
  | @step ls i a l s h t ih =>
    obtain ⟨h1, h2⟩ := flatten_set_cons ls i a l h
    rw [h1]
    refine (List.Perm.cons a ih).trans ?_
    rw [h2]
    simp only [List.append_assoc, List.cons_append]
    exact List.perm_middle.symm

end Pigo
