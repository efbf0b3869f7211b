import Verif.Base.Interleave

/-!
# Data races

What a data race is, for a parallel region whose threads are lists of steps: two accesses to the same memory location by
different threads of the region, not both reads, not both atomic (C++17 [intro.races] 2 and 21; OpenMP's `atomic` is
relaxed and orders nothing else).  Steps of one region are ordered only within a thread: barriers separate regions.
-/

namespace Pigo.Spec

/-- How a location is accessed. -/
inductive Kind
  | read
  | write
  | atomic
  deriving DecidableEq, Repr

/-- An access to element `idx` of the shared array called `arr` in the source. -/
structure Access where
  arr : String
  idx : Nat
  kind : Kind
  deriving DecidableEq, Repr

/-- The element read. -/
def reads (arr : String) (i : Nat) : Access := ⟨arr, i, .read⟩
/-- The element written. -/
def writes (arr : String) (i : Nat) : Access := ⟨arr, i, .write⟩
/-- The element updated atomically. -/
def atomics (arr : String) (i : Nat) : Access := ⟨arr, i, .atomic⟩

/-- Two accesses conflict: same location, at least one is not a read, and they are not both atomic. -/
def Conflict (a b : Access) : Prop :=
  a.arr = b.arr ∧ a.idx = b.idx ∧ ¬ (a.kind = .read ∧ b.kind = .read) ∧ ¬ (a.kind = .atomic ∧ b.kind = .atomic)

/-- Steps labelled with the number of their thread. -/
def tagged {α : Type} (threads : List (List α)) : List (List (Nat × α)) :=
  threads.mapIdx (fun t l => l.map (fun a => (t, a)))

/-- A data race of a region from the shared state `s`: in some interleaving of the threads, a step `a` of thread `t` and a
later step `b` of another thread `u` make conflicting accesses.  `foot a s1` are the accesses of step `a` in the state `s1`
in which it runs. -/
def Race {α S : Type} (step : α → S → M S) (foot : α → S → List Access) (threads : List (List α)) (s : S) : Prop :=
  ∃ (pre mid post : List (Nat × α)) (t u : Nat) (a b : α) (s1 s2 : S) (x y : Access),
    Interleave (tagged threads) (pre ++ (t, a) :: (mid ++ (u, b) :: post)) ∧ t ≠ u ∧
    runActs (fun p => step p.2) pre s = .ok s1 ∧
    runActs (fun p => step p.2) (pre ++ (t, a) :: mid) s = .ok s2 ∧
    x ∈ foot a s1 ∧ y ∈ foot b s2 ∧ Conflict x y

/-- The accesses account for what the steps do.  The shared state consists of memory locations (`look`: the value of element `i`
of the array called `arr`, if there is one), and nothing else.  A step changes only locations it writes or updates atomically.
What it does depends only on the locations it reads or updates atomically: in another state with the same locations, that agrees
on those, it makes the same accesses and leaves the same values behind. -/
def Accounted {α S : Type} (step : α → S → M S) (foot : α → S → List Access) : Prop :=
  ∃ (V : Type) (look : S → String → Nat → Option V),
    (∀ s s', (∀ arr i, look s arr i = look s' arr i) → s = s') ∧
    ∀ a s s', step a s = .ok s' →
      (∀ arr i, look s' arr i ≠ look s arr i → ∃ x ∈ foot a s, x.arr = arr ∧ x.idx = i ∧ x.kind ≠ .read) ∧
      ∀ s₂, (∀ arr i, (look s₂ arr i).isSome = (look s arr i).isSome) →
        (∀ x ∈ foot a s, x.kind ≠ .write → look s₂ x.arr x.idx = look s x.arr x.idx) →
        foot a s₂ = foot a s ∧
        ∃ s₂', step a s₂ = .ok s₂' ∧ ∀ x ∈ foot a s, x.kind ≠ .read → look s₂' x.arr x.idx = look s' x.arr x.idx

end Pigo.Spec
