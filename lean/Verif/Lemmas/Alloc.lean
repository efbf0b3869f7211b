import Verif.Model.Csr
import Verif.Lemmas.Prefix

/-!
# Arrays given by a function, blocks of threads, offsets
-/

namespace Pigo

variable {α : Type}

@[simp] theorem alloc_length (f : Nat → α) (n : Nat) : (alloc f n).length = n := by simp [alloc]

theorem alloc_getElem? (f : Nat → α) {n i : Nat} (h : i < n) : (alloc f n)[i]? = some (f i) := by
  simp [alloc, h]

theorem load_alloc (f : Nat → α) {n i : Nat} (h : i < n) : load (alloc f n) i = .ok (f i) := by
  simp [load, alloc_getElem? f h]

theorem load_ok {a : List α} {i : Nat} {v : α} (h : a[i]? = some v) : load a i = .ok v := by
  simp [load, h]

theorem store_alloc (f : Nat → α) {n i : Nat} (h : i < n) (v : α) :
    store (alloc f n) i v = .ok (alloc (fun k => if k = i then v else f k) n) := by
  rw [store, if_pos (by simpa using h)]
  congr 1
  apply List.ext_getElem?
  intro k
  by_cases hk : k < n
  · rw [alloc_getElem? _ hk]
    by_cases e : i = k
    · subst e; rw [List.getElem?_set_self (by simpa using hk)]; simp
    · rw [List.getElem?_set_ne e, alloc_getElem? _ hk]
      simp [Ne.symm e]
  · rw [List.getElem?_eq_none (by simp; omega), List.getElem?_eq_none (by simp; omega)]

theorem alloc_congr {f g : Nat → α} {n : Nat} (h : ∀ i, i < n → f i = g i) : alloc f n = alloc g n := by
  apply List.map_congr_left
  intro i hi
  exact h i (List.mem_range.mp hi)

theorem map_eq_blockActs (f : Nat → α) (n p : Nat) :
    (List.range' p n).map (fun v => (v, f v)) = blockActs p ((List.range' p n).map f) := by
  induction n generalizing p with
  | zero => rfl
  | succ n ih => simp only [List.range'_succ, List.map_cons, blockActs, ih]

theorem range_eq_blockActs (f : Nat → α) (n : Nat) :
    (List.range n).map (fun v => (v, f v)) = blockActs 0 ((List.range n).map f) := by
  rw [List.range_eq_range', map_eq_blockActs]

/-- Filling an array in any order. -/
theorem run_fill {sched : List (Nat × α)} {vs : List α} (hp : sched.Perm (blockActs 0 vs)) (a : List α)
    (hb : vs.length = a.length) : runActs storeAct sched a = .ok vs := by
  rw [run_block hp a (by omega), Nat.zero_add, hb, List.drop_length]
  simp

/-! ## Blocks of labels -/

theorem vStart_mono (n T : Nat) {a b : Nat} (h : a ≤ b) : vStart n T a ≤ vStart n T b :=
  Nat.div_le_div_right (Nat.mul_le_mul_right n h)

theorem vStart_zero (n T : Nat) : vStart n T 0 = 0 := by simp [vStart]

theorem vStart_last (n T : Nat) (hT : 0 < T) : vStart n T T = n := by
  simp [vStart, Nat.mul_div_cancel_left n hT]

theorem vStart_le (n T : Nat) {k : Nat} (hT : 0 < T) (hk : k ≤ T) : vStart n T k ≤ n := by
  have := vStart_mono n T hk
  rwa [vStart_last n T hT] at this

theorem slices_take (l : List α) (n T k : Nat) :
    ((List.range k).map (slice l n T)).flatten = l.take (vStart n T k) := by
  induction k with
  | zero => simp [vStart_zero]
  | succ k ih =>
    rw [List.range_succ, List.map_append, List.flatten_append, ih]
    simp only [List.map_cons, List.map_nil, List.flatten_cons, List.flatten_nil, List.append_nil, slice]
    have := vStart_mono n T (show k ≤ k + 1 by omega)
    rw [show vStart n T (k+1) = vStart n T k + (vStart n T (k + 1) - vStart n T k) by omega, List.take_add]
    congr 2
    omega

theorem slices_flatten {l : List α} {n T : Nat} (hT : 0 < T) (hl : l.length = n) :
    ((List.range T).map (slice l n T)).flatten = l := by
  rw [slices_take, vStart_last n T hT, ← hl, List.take_length]

theorem slice_length {l : List α} {n T k : Nat} (hT : 0 < T) (hk : k < T) (hl : l.length = n) :
    (slice l n T k).length = vStart n T (k + 1) - vStart n T k := by
  have := vStart_le n T hT (show k + 1 ≤ T by omega)
  have := vStart_mono n T (show k ≤ k + 1 by omega)
  rw [slice, List.length_take, List.length_drop]
  omega

/-- Blocks stored by the threads, where the values of a block are `g`. -/
theorem blocks_prefix (n T k : Nat) (g : Nat → List α)
    (hg : ∀ i, i < k → (g i).length = vStart n T (i + 1) - vStart n T i) :
    ((List.range k).map (fun tid => blockActs (vStart n T tid) (g tid))).flatten =
      blockActs 0 ((List.range k).map g).flatten ∧ (((List.range k).map g).flatten).length = vStart n T k := by
  induction k with
  | zero => simp [vStart_zero, blockActs]
  | succ k ih =>
    obtain ⟨h1, h2⟩ := ih (fun i hi => hg i (by omega))
    have h3 := hg k (by omega)
    have h4 := vStart_mono n T (show k ≤ k + 1 by omega)
    rw [List.range_succ, List.map_append, List.flatten_append, h1, List.map_append, List.flatten_append, blockActs_append,
      h2]
    refine ⟨by simp, ?_⟩
    rw [List.length_append, h2]
    simp only [List.map_cons, List.map_nil, List.flatten_cons, List.flatten_nil, List.append_nil, h3]
    omega

/-! ## Offsets -/

@[simp] theorem runSums_length (acc : Nat) (ds : List Nat) : (runSums acc ds).length = ds.length := by
  induction ds generalizing acc with
  | nil => rfl
  | cons d ds ih => simp [runSums, ih]

theorem runSums_append (acc : Nat) (a b : List Nat) :
    runSums acc (a ++ b) = runSums acc a ++ runSums (acc + a.sum) b := by
  induction a generalizing acc with
  | nil => simp [runSums]
  | cons d a ih => simp [runSums, ih, Nat.add_assoc]

theorem runSums_getElem? (acc : Nat) (ds : List Nat) {v : Nat} (h : v < ds.length) :
    (runSums acc ds)[v]? = some (acc + (ds.take v).sum) := by
  induction ds generalizing acc v with
  | nil => simp at h
  | cons d ds ih =>
    cases v with
    | zero => simp [runSums]
    | succ v =>
      simp only [List.length_cons, Nat.add_lt_add_iff_right] at h
      simp [runSums, ih _ h, Nat.add_assoc]

/-- The offsets array of a CSR with the given degrees. -/
def offsetsOf (degs : List Nat) : List Nat := runSums 0 degs ++ [degs.sum]

@[simp] theorem offsetsOf_length (degs : List Nat) : (offsetsOf degs).length = degs.length + 1 := by simp [offsetsOf]

theorem offsetsOf_getElem? (degs : List Nat) {v : Nat} (h : v ≤ degs.length) :
    (offsetsOf degs)[v]? = some (degs.take v).sum := by
  by_cases hv : v < degs.length
  · rw [offsetsOf, List.getElem?_append_left (by simpa using hv), runSums_getElem? _ _ hv, Nat.zero_add]
  · have : v = degs.length := by omega
    subst this
    simp [offsetsOf]

theorem sums_take (l : List Nat) (n T k : Nat) (hk : k ≤ T) :
    (((List.range T).map (fun tid => (slice l n T tid).sum)).take k).sum = (l.take (vStart n T k)).sum := by
  rw [← List.map_take, List.take_range, Nat.min_eq_left hk, ← slices_take l n T k]
  induction List.range k with
  | nil => rfl
  | cons a r ih => simp [ih]

theorem start_slices (l : List Nat) (n T k : Nat) (hk : k ≤ T) :
    startOf (prefixSums 0 ((List.range T).map (fun tid => (slice l n T tid).sum))) k = (l.take (vStart n T k)).sum := by
  rw [startOf_eq _ _ (by simpa using hk), sums_take l n T k hk]

theorem runSums_slices (l : List Nat) (n T k : Nat) :
    ((List.range k).map (fun tid => runSums (l.take (vStart n T tid)).sum (slice l n T tid))).flatten =
      runSums 0 (l.take (vStart n T k)) := by
  induction k with
  | zero => simp [vStart_zero, runSums]
  | succ k ih =>
    rw [List.range_succ, List.map_append, List.flatten_append, ih]
    have h : l.take (vStart n T (k+1)) = l.take (vStart n T k) ++ slice l n T k := by
      have := vStart_mono n T (show k ≤ k + 1 by omega)
      rw [slice, show vStart n T (k+1) = vStart n T k + (vStart n T (k + 1) - vStart n T k) by omega, List.take_add]
      congr 2
      omega
    rw [h, runSums_append, Nat.zero_add]
    simp

/-- The offset phase writes the offsets, in any order of the stores. -/
theorem run_offsets {n T : Nat} (hT : 0 < T) {degs : List Nat} (hn : degs.length = n) {sched : List (Nat × Nat)}
    (h : Interleave (offsetThreads n degs.sum T degs
      (prefixSums 0 ((List.range T).map (fun tid => (slice degs n T tid).sum)))) sched)
    (a : List Nat) (ha : a.length = n + 1) : runActs storeAct sched a = .ok (offsetsOf degs) := by
  apply run_fill _ a (by simp [hn, ha])
  have hp := h.perm
  refine hp.trans (List.Perm.of_eq ?_)
  have e : (List.range T).map (fun tid => blockActs (vStart n T tid) (runSums (startOf
      (prefixSums 0 ((List.range T).map (fun tid => (slice degs n T tid).sum))) tid) (slice degs n T tid))) =
      (List.range T).map (fun tid => blockActs (vStart n T tid) (runSums (degs.take (vStart n T tid)).sum (slice degs n T tid))) := by
    apply List.map_congr_left
    intro tid ht
    rw [start_slices degs n T tid (Nat.le_of_lt (List.mem_range.mp ht))]
  rw [offsetThreads, e, List.flatten_append]
  have hb := blocks_prefix n T T (fun tid => runSums (degs.take (vStart n T tid)).sum (slice degs n T tid))
    (fun i hi => by rw [runSums_length, slice_length hT hi hn])
  rw [hb.1, runSums_slices, vStart_last n T hT, ← hn, List.take_length, offsetsOf, blockActs_append, runSums_length]
  simp [blockActs]

end Pigo
