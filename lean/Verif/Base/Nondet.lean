import Verif.Base.Blocks

/-!
# Nondeterministic computations

`R α` is a set of possible outcomes: of contents of uninitialised memory, of assignments of loop
iterations to threads and of interleavings.
-/

namespace Pigo

/-- The set of outcomes of a nondeterministic computation. -/
def R (α : Type) : Type := M α → Prop

/-- `o` is a possible outcome of `p`. -/
def R.Out {α : Type} (p : R α) (o : M α) : Prop := p o

/-- A computation without choice. -/
def R.lift {α : Type} (o : M α) : R α := fun out => out = o

/-- Sequential composition; a fault ends the execution. -/
def R.bind {α β : Type} (p : R α) (k : α → R β) : R β := fun out =>
  ∃ o, p o ∧ match o with
    | .error f => out = .error f
    | .ok a => k a out

instance : Monad R where
  pure a := R.lift (.ok a)
  bind := R.bind

/-- An arbitrary value satisfying `P`. -/
def R.choose {α : Type} (P : α → Prop) : R α := fun out => ∃ a, P a ∧ out = .ok a

/-- An arbitrary value: the content of uninitialised memory. -/
def R.any (α : Type) : R α := R.choose (fun _ => True)

/-- A parallel region: `threads` run in any interleaving of their steps from the shared state `s`. -/
def R.par {α S : Type} (step : α → S → M S) (threads : List (List α)) (s : S) : R S := fun out =>
  ∃ sched, Interleave threads sched ∧ out = runActs step sched s

/-- Assignment of the iterations of a `#pragma omp for` with the default schedule to `T` threads:
every iteration once, every thread runs its iterations in increasing order (OpenMP's default schedule is
`static`, or a monotonic one). -/
structure OmpFor (k T : Nat) (its : List (List Nat)) : Prop where
  threads : its.length = T
  all : its.flatten.Perm (List.range k)
  inc : ∀ l ∈ its, l.Pairwise (· < ·)

/-- Assignment of the iterations of a `#pragma omp for schedule(dynamic, …)`: every iteration once, in any
thread and any order. -/
structure OmpDyn (k T : Nat) (its : List (List Nat)) : Prop where
  threads : its.length = T
  all : its.flatten.Perm (List.range k)

/-! ## Reasoning -/

/-- Every outcome of `p` is a success satisfying `Q`. -/
def R.All {α : Type} (p : R α) (Q : α → Prop) : Prop := ∀ o, p.Out o → ∃ a, o = .ok a ∧ Q a

/-- `p` has an outcome. -/
def R.Any {α : Type} (p : R α) : Prop := ∃ o, p.Out o

variable {α β S : Type}

theorem R.All.bind {p : R α} {k : α → R β} {P : α → Prop} {Q : β → Prop} (hp : p.All P)
    (hk : ∀ a, P a → (k a).All Q) : (p >>= k).All Q := by
  rintro out ⟨o, ho, h⟩
  obtain ⟨a, rfl, ha⟩ := hp o ho
  exact hk a ha out h

theorem R.All.lift {o : M α} {Q : α → Prop} {a : α} (h : o = .ok a) (hq : Q a) : (R.lift o).All Q := by
  rintro out rfl; exact ⟨a, h, hq⟩

theorem R.All.pure {a : α} {Q : α → Prop} (hq : Q a) : (pure a : R α).All Q := by
  rintro out rfl; exact ⟨a, rfl, hq⟩

theorem R.All.choose {P Q : α → Prop} (h : ∀ a, P a → Q a) : (R.choose P).All Q := by
  rintro out ⟨a, ha, rfl⟩; exact ⟨a, rfl, h a ha⟩

theorem R.All.any : (R.any α).All (fun _ => True) := R.All.choose (fun _ _ => trivial)

theorem R.All.par {step : α → S → M S} {threads : List (List α)} {s : S} {Q : S → Prop}
    (h : ∀ sched, Interleave threads sched → ∃ s', runActs step sched s = .ok s' ∧ Q s') :
    (R.par step threads s).All Q := by
  rintro out ⟨sched, hs, rfl⟩; exact h sched hs

theorem R.All.mono {p : R α} {P Q : α → Prop} (hp : p.All P) (h : ∀ a, P a → Q a) : p.All Q := by
  intro o ho
  obtain ⟨a, rfl, ha⟩ := hp o ho
  exact ⟨a, rfl, h a ha⟩

theorem R.Any.bind {p : R α} {k : α → R β} (hp : p.Any) (hk : ∀ a, (k a).Any) : (p >>= k).Any := by
  obtain ⟨o, ho⟩ := hp
  cases o with
  | error f => exact ⟨.error f, .error f, ho, rfl⟩
  | ok a =>
    obtain ⟨o', ho'⟩ := hk a
    exact ⟨o', .ok a, ho, ho'⟩

theorem R.Any.lift (o : M α) : (R.lift o).Any := ⟨o, rfl⟩
theorem R.Any.pure (a : α) : (pure a : R α).Any := ⟨.ok a, rfl⟩
theorem R.Any.choose {P : α → Prop} {a : α} (h : P a) : (R.choose P).Any := ⟨.ok a, a, h, rfl⟩
theorem R.Any.any [Nonempty α] : (R.any α).Any := ⟨.ok (Classical.choice inferInstance), _, trivial, rfl⟩
theorem R.Any.par (step : α → S → M S) (threads : List (List α)) (s : S) : (R.par step threads s).Any :=
  ⟨_, _, interleave_flatten threads, rfl⟩

theorem range_pairwise (n : Nat) : (List.range n).Pairwise (· < ·) := by
  rw [List.range_eq_range']; exact List.pairwise_lt_range'

/-- One thread may take all iterations. -/
theorem OmpFor.one (k T : Nat) (hT : 0 < T) : OmpFor k T (List.range k :: List.replicate (T - 1) []) where
  threads := by simp; omega
  all := by simp
  inc := by
    intro l hl
    rcases List.mem_cons.mp hl with rfl | hl
    · exact range_pairwise k
    · rw [(List.mem_replicate.mp hl).2]; exact List.Pairwise.nil

theorem OmpFor.dyn {k T : Nat} {its : List (List Nat)} (h : OmpFor k T its) : OmpDyn k T its := ⟨h.threads, h.all⟩

/-- With one thread the loop runs in order. -/
theorem OmpFor.seq {k : Nat} {its : List (List Nat)} (h : OmpFor k 1 its) : its = [List.range k] := by
  match its, h with
  | [l], h =>
    have hp : l.Perm (List.range k) := by simpa using h.all
    have hl := h.inc l (by simp)
    congr 1
    exact hp.eq_of_pairwise (le := (· < ·)) (fun a b _ _ h1 h2 => absurd h1 (Nat.lt_asymm h2)) hl (range_pairwise k)

/-- An execution of one thread. -/
theorem Interleave.single {l s : List α} (h : Interleave [l] s) : s = l := by
  generalize hls : [l] = ls at h
  induction h generalizing l with
  | done h => subst hls; exact (h l (by simp)).symm
  | @step ls i a l' s hi t ih =>
    subst hls
    cases i with
    | zero =>
      simp only [List.getElem?_cons_zero, Option.some.injEq] at hi
      subst hi
      rw [ih (l := l') (by simp)]
    | succ i => simp at hi

/-! ## Two memories -/

/-- Steps on two separate objects. -/
def sumStep {α β S T : Type} (f : α → S → M S) (g : β → T → M T) : α ⊕ β → S × T → M (S × T)
  | .inl a, s => do let s' ← f a s.1; .ok (s', s.2)
  | .inr b, s => do let t' ← g b s.2; .ok (s.1, t')

theorem run_sum {α β S T : Type} (f : α → S → M S) (g : β → T → M T) (sched : List (α ⊕ β)) (s s' : S) (t t' : T)
    (h1 : runActs f (sched.filterMap Sum.getLeft?) s = .ok s')
    (h2 : runActs g (sched.filterMap Sum.getRight?) t = .ok t') :
    runActs (sumStep f g) sched (s, t) = .ok (s', t') := by
  induction sched generalizing s t with
  | nil =>
    simp only [List.filterMap_nil, runActs] at h1 h2 ⊢
    injection h1 with h1; injection h2 with h2; rw [h1, h2]
  | cons a sched ih =>
    cases a with
    | inl a =>
      simp only [List.filterMap_cons, Sum.getLeft?, Sum.getRight?, runActs, sumStep] at h1 h2 ⊢
      cases hf : f a s with
      | error e => rw [hf] at h1; cases h1
      | ok s1 =>
        rw [hf, ok_bind] at h1
        simp only [ok_bind]
        exact ih _ _ h1 h2
    | inr b =>
      simp only [List.filterMap_cons, Sum.getLeft?, Sum.getRight?, runActs, sumStep] at h1 h2 ⊢
      cases hg : g b t with
      | error e => rw [hg] at h2; cases h2
      | ok t1 =>
        rw [hg, ok_bind] at h2
        simp only [ok_bind]
        exact ih _ _ h1 h2

end Pigo
