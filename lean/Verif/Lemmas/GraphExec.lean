import Verif.Lemmas.GraphFile
import Verif.Lemmas.MatrixMarket
import Verif.Lemmas.Alloc
import Verif.Spec.GraphFile

/-!
# Executions of `read_graph_` on comment-free bodies
-/

namespace Pigo

/-! ## Tokens by rows -/

/-- The tokens of `rows`, each ended by a newline, and `tail`. -/
def toks (rows : List (List (List Byte))) (tail : List (List Byte)) : List Tok :=
  rows.flatMap (fun r => r.map Tok.int ++ [Tok.nl]) ++ tail.map Tok.int

theorem toks_nil (tail : List (List Byte)) : toks [] tail = tail.map Tok.int := rfl

theorem toks_cons (r : List (List Byte)) (rows : List (List (List Byte))) (tail : List (List Byte)) :
    toks (r :: rows) tail = r.map Tok.int ++ .nl :: toks rows tail := by
  simp [toks]

theorem nlsOf_ints (r : List (List Byte)) : nlsOf (r.map Tok.int) = 0 := by
  induction r with
  | nil => rfl
  | cons a r ih => rw [List.map_cons, nlsOf_int, ih]

theorem runsOf_ints (r : List (List Byte)) : runsOf (r.map Tok.int) = r := by
  induction r with
  | nil => rfl
  | cons a r ih => rw [List.map_cons, runsOf_int, ih]

theorem nlsOf_toks (rows : List (List (List Byte))) (tail : List (List Byte)) : nlsOf (toks rows tail) = rows.length := by
  induction rows with
  | nil => exact nlsOf_ints tail
  | cons r rows ih => rw [toks_cons, nlsOf_append, nlsOf_ints, nlsOf_nl, ih, List.length_cons]; omega

theorem runsOf_toks (rows : List (List (List Byte))) (tail : List (List Byte)) : runsOf (toks rows tail) = rows.flatten ++ tail := by
  induction rows with
  | nil => exact runsOf_ints tail
  | cons r rows ih => rw [toks_cons, runsOf_append, runsOf_ints, runsOf_nl, ih, List.flatten_cons, List.append_assoc]

theorem zeroIn_toks (rows : List (List (List Byte))) (tail : List (List Byte)) :
    zeroIn (toks rows tail) = decide ([48] ∈ rows.flatten ++ tail) := by
  unfold zeroIn
  congr 1
  simp only [toks, List.mem_append, List.mem_flatMap, List.mem_map, List.mem_singleton, List.mem_flatten, eq_iff_iff]
  constructor
  · rintro (⟨r, hr, ⟨a, ha, h⟩ | h⟩ | ⟨a, ha, h⟩)
    · injection h with h; subst h; exact .inl ⟨r, hr, ha⟩
    · cases h
    · injection h with h; subst h; exact .inr ha
  · rintro (⟨r, hr, ha⟩ | ha)
    · exact .inl ⟨r, hr, .inl ⟨_, ha, rfl⟩⟩
    · exact .inr ⟨_, ha, rfl⟩

/-- The value stored for a run of digits. -/
def rval (lw : Nat) (r : List Byte) : Nat := decVal r % 2 ^ lw

theorem tokActs_ints {lw n off : Nat} (h : off < n) : ∀ (r : List (List Byte)) (ep : Nat),
    tokActs lw n off ep (r.map Tok.int) = (blockActs ep (r.map (rval lw))).map Sum.inr
  | [], _ => rfl
  | a :: r, ep => by
    rw [List.map_cons, tokActs, if_pos h, tokActs_ints h r, List.map_cons, blockActs, List.map_cons]; rfl

theorem tokMax_ints {lw n off : Nat} (h : off < n) : ∀ (r : List (List Byte)) (mx : Nat),
    tokMax lw n off mx (r.map Tok.int) = (r.map (rval lw)).foldl max mx
  | [], _ => rfl
  | a :: r, mx => by
    rw [List.map_cons, tokMax, if_pos h, tokMax_ints h r, List.map_cons, List.foldl_cons]; rfl

theorem getLeft_inr {α β : Type} (l : List β) : (l.map (Sum.inr : β → α ⊕ β)).filterMap Sum.getLeft? = [] := by
  induction l with
  | nil => rfl
  | cons a l ih => simp

theorem getRight_inr {α β : Type} (l : List β) : (l.map (Sum.inr : β → α ⊕ β)).filterMap Sum.getRight? = l := by
  induction l with
  | nil => rfl
  | cons a l ih => rw [List.map_cons, List.filterMap_cons]; simp only [Sum.getRight?]; rw [ih]

theorem tokActs_left (lw : Nat) (tail : List (List Byte)) : ∀ (rows : List (List (List Byte))) (off ep : Nat),
    (tokActs lw (off + rows.length) off ep (toks rows tail)).filterMap Sum.getLeft? =
      blockActs (off + 1) (prefixSums ep (rows.map List.length))
  | [], off, ep => by rw [tokActs_stop (by simp)]; rfl
  | r :: rows, off, ep => by
    have h : off < off + (r :: rows).length := by simp
    have ih := tokActs_left lw tail rows (off + 1) (ep + r.length)
    rw [toks_cons, tokActs_append, tokActs_ints h, List.filterMap_append, getLeft_inr, nlsOf_ints, runsOf_ints, Nat.add_zero,
      tokActs, if_pos h, List.filterMap_cons, List.map_cons, prefixSums, blockActs, ← ih]
    rw [show off + (r :: rows).length = off + 1 + rows.length from by simp; omega]
    rfl

theorem tokActs_right (lw : Nat) (tail : List (List Byte)) : ∀ (rows : List (List (List Byte))) (off ep : Nat),
    (tokActs lw (off + rows.length) off ep (toks rows tail)).filterMap Sum.getRight? =
      blockActs ep (rows.flatten.map (rval lw))
  | [], off, ep => by rw [tokActs_stop (by simp)]; rfl
  | r :: rows, off, ep => by
    have h : off < off + (r :: rows).length := by simp
    have ih := tokActs_right lw tail rows (off + 1) (ep + r.length)
    rw [toks_cons, tokActs_append, tokActs_ints h, List.filterMap_append, getRight_inr, nlsOf_ints, runsOf_ints, Nat.add_zero,
      tokActs, if_pos h, List.filterMap_cons, List.flatten_cons, List.map_append, blockActs_append, List.length_map, ← ih]
    rw [show off + (r :: rows).length = off + 1 + rows.length from by simp; omega]
    rfl

theorem tokMax_rows (lw : Nat) (tail : List (List Byte)) : ∀ (rows : List (List (List Byte))) (off mx : Nat),
    tokMax lw (off + rows.length) off mx (toks rows tail) = (rows.flatten.map (rval lw)).foldl max mx
  | [], off, mx => by rw [tokMax_stop (by simp)]; rfl
  | r :: rows, off, mx => by
    have h : off < off + (r :: rows).length := by simp
    have ih := tokMax_rows lw tail rows (off + 1) ((r.map (rval lw)).foldl max mx)
    rw [toks_cons, tokMax_append, tokMax_ints h, nlsOf_ints, Nat.add_zero, tokMax, if_pos h, List.flatten_cons, List.map_append,
      List.foldl_append, ← ih]
    rw [show off + (r :: rows).length = off + 1 + rows.length from by simp; omega]

/-! ## The execution -/

/-- The offsets stored. -/
def graphOffsets (base : Nat) (rows : List (List (List Byte))) (tail : List (List Byte)) : List Nat :=
  if rows = [] then List.replicate base 0 ++ [tail.length]
  else List.replicate (base + 1) 0 ++ prefixSums 0 (rows.map List.length)

theorem prefixSums_length : ∀ (acc : Nat) (l : List Nat), (prefixSums acc l).length = l.length
  | _, [] => rfl
  | acc, d :: l => by rw [prefixSums, List.length_cons, List.length_cons, prefixSums_length]

variable {W : Type} {μ : Mapping} {e : Nat}

/-- The executions, given the stores of the threads. -/
theorem readGraph_of_plan {lw ow T : Nat} {r : Reader} {rn rm : Nat} {threads : List (List GAct)}
    {rows : List (List (List Byte))} {tail : List (List Byte)} {base : Nat} (hb2 : base = 0 ∨ base = 1)
    (h1 : graphPlan μ lw ow T r = .ok { readN := rn, readM := rm, n := base + rows.length, m := (rows.flatten ++ tail).length
                                        base := base, threads := threads, colMax := (rows.flatten.map (rval lw)).foldl max 0 })
    (hL : threads.flatten.filterMap Sum.getLeft? = blockActs (base + 1) (prefixSums 0 (rows.map List.length)))
    (hR : threads.flatten.filterMap Sum.getRight? = blockActs 0 (rows.flatten.map (rval lw)))
    (hn : base + rows.length + 1 < 2 ^ lw) (out : M (Csr W)) :
    (readGraph lw ow T μ r).Out out ↔ ∃ junk : List Nat, junk.length = tail.length ∧
      out = graphFinish lw ow { readN := rn, readM := rm, n := base + rows.length, m := (rows.flatten ++ tail).length, base := base
                                threads := [], colMax := (rows.flatten.map (rval lw)).foldl max 0 }
        (graphOffsets base rows tail) (rows.flatten.map (rval lw) ++ junk) := by
  have hmod : plusOne lw (base + rows.length) = base + rows.length + 1 := by
    rw [plusOne, Nat.mod_eq_of_lt hn, ite_self]
  -- the initial offsets
  have hinit : ∀ jo : Nat → Nat, ∃ o, graphInit base (base + rows.length) (rows.flatten ++ tail).length
      (alloc jo (base + rows.length + 1)) = .ok o ∧ o.length = base + rows.length + 1 ∧
      o.take (base + 1) = (if rows = [] then List.replicate base 0 ++ [tail.length] else List.replicate (base + 1) 0) := by
    intro jo
    have ha : (alloc jo (base + rows.length + 1)).length = base + rows.length + 1 := by simp [alloc]
    generalize alloc jo (base + rows.length + 1) = a at ha
    rcases hb2 with rfl | rfl
    · obtain ⟨x, a, rfl⟩ : ∃ x a', a = x :: a' := by cases a with | nil => simp at ha | cons x a => exact ⟨x, a, rfl⟩
      cases rows with
      | nil =>
        refine ⟨[tail.length], ?_, ?_, ?_⟩
        · have : a = [] := by simpa using ha
          subst this
          simp [graphInit, runActs, storeAct, store]
        · simp
        · simp
      | cons q rows =>
        refine ⟨(0 :: a).set (0 + (q :: rows).length) ((q :: rows).flatten ++ tail).length, ?_, ?_, ?_⟩
        · rw [graphInit, show runActs storeAct (if (0 : Nat) = 1 then [(0, 0), (1, 0)] else [(0, 0)]) (x :: a) = .ok (0 :: a) from by
            simp [runActs, storeAct, store], ok_bind, store, if_pos (by simp at ha ⊢; omega)]
        · simpa using ha
        · simp [Nat.add_comm 0]
    · obtain ⟨x, y, a, rfl⟩ : ∃ x y a', a = x :: y :: a' := by
        match a, ha with
        | x :: y :: a, _ => exact ⟨x, y, a, rfl⟩
        | [x], h => simp at h
        | [], h => simp at h
      cases rows with
      | nil =>
        refine ⟨[0, tail.length], ?_, ?_, ?_⟩
        · have : a = [] := by simpa using ha
          subst this
          simp [graphInit, runActs, storeAct, store]
        · simp
        · simp
      | cons q rows =>
        refine ⟨(0 :: 0 :: a).set (1 + (q :: rows).length) ((q :: rows).flatten ++ tail).length, ?_, ?_, ?_⟩
        · rw [graphInit, show runActs storeAct (if (1 : Nat) = 1 then [(0, 0), (1, 0)] else [(0, 0)]) (x :: y :: a) = .ok (0 :: 0 :: a) from by
            simp [runActs, storeAct, store], ok_bind, store, if_pos (by simp at ha ⊢; omega)]
        · simp at ha ⊢; omega
        · simp [Nat.add_comm 1]
  -- the parallel stores
  have hpar : ∀ (o a : List Nat) (sched : List GAct), Interleave threads sched → o.length = base + rows.length + 1 →
      o.take (base + 1) = (if rows = [] then List.replicate base 0 ++ [tail.length] else List.replicate (base + 1) 0) →
      a.length = (rows.flatten ++ tail).length →
      runActs (sumStep storeAct storeAct) sched (o, a) =
        .ok (graphOffsets base rows tail, rows.flatten.map (rval lw) ++ a.drop rows.flatten.length) := by
    intro o a sched hi ho1 ho2 ha
    have hp := hi.perm
    refine run_sum _ _ _ _ _ _ _ ?_ ?_
    · rw [run_block (p := base + 1) (vs := prefixSums 0 (rows.map List.length)) (hL ▸ hp.filterMap _) o
        (by rw [prefixSums_length, List.length_map]; omega), ho2]
      rw [prefixSums_length, List.length_map, List.drop_of_length_le (by omega), List.append_nil, graphOffsets]
      congr 1
      split
      · rename_i h; subst h; simp [prefixSums]
      · rfl
    · rw [run_block (p := 0) (vs := rows.flatten.map (rval lw)) (hR ▸ hp.filterMap _) a
        (by rw [ha, List.length_map, List.length_append]; omega)]
      rw [List.length_map, Nat.zero_add, List.take_zero, List.nil_append]
  constructor
  · intro h
    unfold readGraph at h
    obtain ⟨o1, rfl, h⟩ := h
    rw [h1] at h
    obtain ⟨o2, ⟨jo, _, rfl⟩, h⟩ := h
    obtain ⟨o3, ⟨je, _, rfl⟩, h⟩ := h
    simp only [hmod] at h
    obtain ⟨o, i1, i2, i3⟩ := hinit jo
    obtain ⟨o4, rfl, h⟩ := h
    rw [i1] at h
    obtain ⟨o5, ⟨sched, hi, rfl⟩, h⟩ := h
    rw [hpar o _ sched hi i2 i3 (by simp [alloc])] at h
    exact ⟨_, by simp [alloc], h⟩
  · rintro ⟨junk, hj, rfl⟩
    obtain ⟨o, i1, i2, i3⟩ := hinit (fun _ => 0)
    refine ⟨_, rfl, ?_⟩
    rw [h1]
    refine ⟨_, ⟨fun _ => 0, trivial, rfl⟩, ?_⟩
    refine ⟨_, ⟨fun i => junk.getD (i - rows.flatten.length) 0, trivial, rfl⟩, ?_⟩
    simp only [hmod]
    refine ⟨_, rfl, ?_⟩
    rw [i1]
    refine ⟨_, ⟨_, interleave_flatten _, rfl⟩, ?_⟩
    rw [hpar o _ _ (interleave_flatten _) i2 i3 (by simp [alloc])]
    have : (alloc (fun i => junk.getD (i - rows.flatten.length) 0) (rows.flatten ++ tail).length).drop rows.flatten.length = junk := by
      apply List.ext_getElem
      · simp [alloc, hj]
      · intro i h1 h2
        simp [alloc, List.getElem?_eq_getElem h2]
    rw [this]
    rfl

theorem readGraph_iff {lw ow T : Nat} (hT : 0 < T) {r : Reader} {rn rm : Nat} {s : List Byte}
    (hh : graphHeader μ lw ow r = .ok (rn, rm, rd e s)) (g : GState μ e s)
    {rows : List (List (List Byte))} {tail : List (List Byte)} (hs : tk [] s = toks rows tail)
    {base : Nat} (hb : base = baseOf (tk [] s))
    (hn : base + rows.length + 1 < 2 ^ lw) (hm : (rows.flatten ++ tail).length < 2 ^ ow) (out : M (Csr W)) :
    (readGraph lw ow T μ r).Out out ↔ ∃ junk : List Nat, junk.length = tail.length ∧
      out = graphFinish lw ow { readN := rn, readM := rm, n := base + rows.length, m := (rows.flatten ++ tail).length, base := base
                                threads := [], colMax := (rows.flatten.map (rval lw)).foldl max 0 }
        (graphOffsets base rows tail) (rows.flatten.map (rval lw) ++ junk) := by
  obtain ⟨threads, h1, h2, _⟩ := graphPlan_eq (lw := lw) (ow := ow) hT hh g
    (by rw [← hb, hs, nlsOf_toks]; omega) (by rw [hs, runsOf_toks]; exact hm)
  rw [← hb, hs, nlsOf_toks, runsOf_toks] at h1
  rw [← hb, hs, nlsOf_toks] at h2
  rw [tokMax_rows] at h1
  exact readGraph_of_plan (by rw [hb]; unfold baseOf; split <;> simp) h1 (by rw [h2, tokActs_left]) (by rw [h2, tokActs_right]) hn out

end Pigo
