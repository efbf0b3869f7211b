import Verif.Model.Coo

/-!
# `FileReader::find_offsets` (impl/pigo.impl.hpp 513–625)
-/

namespace Pigo

/-- The region of thread `tid` (impl/pigo.impl.hpp 543–555 and 592–604). -/
def foRegion (μ : Mapping) (c : Byte) (r : Reader) (T tid : Nat) : M Reader := do
  let re ← moveTo μ c (r.plus ((tid + 1) * r.size / T))
  let rs ← if tid ≠ 0 then moveTo μ c (r.plus (tid * r.size / T)) else .ok (r.plus (tid * r.size / T))
  .ok (rs.smallerEnd re)

/-- One iteration of pass 1 (impl/pigo.impl.hpp 561–565); the load `*rs_p1.d` is unguarded. -/
def foCountStep (μ : Mapping) (c : Byte) (n : Nat) (r : Reader) : M (Nat × Reader) := do
  let r ← moveTo μ c r
  let b ← μ.get r.d
  .ok (if b == c then n + 1 else n, r)

/-- One iteration of pass 2 (impl/pigo.impl.hpp 612–618): the state is the next index and the stores so far. -/
def foSetStep (μ : Mapping) (c : Byte) (base : Nat) (st : Nat × List (Nat × Nat)) (r : Reader) :
    M ((Nat × List (Nat × Nat)) × Reader) := do
  let r ← moveTo μ c r
  let b ← μ.get r.d
  .ok (if b == c then (st.1 + 1, st.2 ++ [(st.1, r.d - base)]) else st, r)

/-- Pass 1 of a thread (impl/pigo.impl.hpp 557–567) -/
def foCount (μ : Mapping) (c : Byte) (rs : Reader) : M Nat := do
  let (n, _) ← whileGood (foCountStep μ c) (rs.e - rs.d) 0 rs
  .ok n

/-- Pass 2 of thread `p.1` (impl/pigo.impl.hpp 606–619) -/
def foSet (μ : Mapping) (c : Byte) (base : Nat) (offs : List Nat) (p : Nat × Reader) : M (List (Nat × Nat)) := do
  let (st, _) ← whileGood (foSetStep μ c base) (p.2.e - p.2.d) (startOf offs p.1, []) p.2
  .ok st.2

/-- Both passes with `T` threads up to the stores: the number of occurrences and the stores of each thread. -/
def foPlan (μ : Mapping) (c : Byte) (T : Nat) (r : Reader) : M (Nat × List (List (Nat × Nat))) := do
  let regions ← mapE (foRegion μ c r T) (List.range T)
  let counts ← mapE (foCount μ c) regions
  let sts ← mapE (foSet μ c r.d (prefixSums 0 counts)) ((List.range T).zip regions)
  .ok ((prefixSums 0 counts).getD (T - 1) 0, sts)

/-- An execution of `find_offsets(c)` with `T` threads: any interleaving of the stores, any content `junk` of the
allocated tensor. -/
def FindOffsets (μ : Mapping) (c : Byte) (T : Nat) (r : Reader) (out : M (List Nat)) : Prop :=
  match foPlan μ c T r with
  | .error f => out = .error f
  | .ok (m, ths) => ∃ (junk : Nat → Nat) (sched : List (Nat × Nat)), Interleave ths sched ∧
      out = runActs storeAct sched (alloc junk m)

end Pigo
