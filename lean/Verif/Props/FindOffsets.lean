import Verif.Model.FindOffsets
import Verif.Lemmas.Prefix
import Verif.Props.Reader

/-!
# `find_offsets` (C07)
-/

namespace Pigo

variable {μ : Mapping}

/-- `move_to(c)` by positions: the first `c` strictly behind the cursor. -/
theorem moveTo_position {r : Reader} (hr : r.Ok μ) (h : r.d < r.e) (c : Byte) :
    ∃ k, moveTo μ c r = .ok ⟨k, r.e⟩ ∧ r.d < k ∧ k ≤ r.e ∧ (∀ i, r.d < i → i < k → μ.get i ≠ .ok c) ∧
      (k < r.e → μ.get k = .ok c) := by
  obtain ⟨v, hrd⟩ := reader_view hr
  have hr1 : (Reader.mk (r.d + 1) r.e).Ok μ := ⟨h, hr.len⟩
  obtain ⟨k, h1, h2, h3⟩ := scan_position hr1 (fun b => b != c)
  have hlen := hr.len
  have htail : (Spec.slice μ.bytes r.d r.e).tail = Spec.slice μ.bytes (r.d + 1) r.e := by
    unfold Spec.slice; rw [← List.drop_one, List.drop_drop]
  refine ⟨k, ?_, h2.ge, h2.le, ?_, ?_⟩
  · conv => lhs; rw [hrd]
    rw [moveTo_eq v, htail]
    simp only at h3
    rw [h3]
    unfold rd
    have hk : k ≤ r.e := h2.le
    rw [rdr_slice_length hlen]
    congr 2; omega
  · intro i hi1 hi2 hc
    have hi : i < μ.bytes.length := by have : k ≤ r.e := h2.le; omega
    rw [μ.get_lt hi] at hc
    injection hc with hc
    exact h2.before i hi1 hi2 ⟨c, by rw [List.getElem?_eq_getElem hi, hc], by simp⟩
  · intro hk
    obtain ⟨b, hb, hbc⟩ := h2.at_ hk
    simp at hbc; subst hbc
    obtain ⟨hi, hb'⟩ := List.getElem?_eq_some_iff.mp hb
    rw [μ.get_lt hi, hb']

/-- The positions behind `a` up to and including `b` that hold `c`. -/
def occ (μ : Mapping) (c : Byte) (a b : Nat) : List Nat :=
  (List.range' (a + 1) (b - a)).filter (fun i => decide (μ.get i = .ok c))

theorem occ_append (μ : Mapping) (c : Byte) {a b d : Nat} (h1 : a ≤ b) (h2 : b ≤ d) :
    occ μ c a b ++ occ μ c b d = occ μ c a d := by
  unfold occ
  rw [← List.filter_append]
  congr 1
  have := List.range'_append_1 (s := a + 1) (m := b - a) (n := d - b)
  rw [show a + 1 + (b - a) = b + 1 by omega, show b - a + (d - b) = d - a by omega] at this
  exact this

theorem occ_next (μ : Mapping) (c : Byte) {a k : Nat} (h1 : a < k) (hno : ∀ i, a < i → i < k → μ.get i ≠ .ok c) :
    occ μ c a k = if μ.get k = .ok c then [k] else [] := by
  have : occ μ c a k = occ μ c a (k - 1) ++ occ μ c (k - 1) k := (occ_append μ c (by omega) (by omega)).symm
  rw [this]
  have h2 : occ μ c a (k - 1) = [] := by
    unfold occ
    rw [List.filter_eq_nil_iff]
    intro i hi
    rw [List.mem_range'_1] at hi
    simpa using hno i (by omega) (by omega)
  rw [h2, List.nil_append]
  unfold occ
  rw [show k - 1 + 1 = k by omega, show k - (k - 1) = 1 by omega]
  by_cases h : μ.get k = .ok c <;> simp [List.range'_succ, h]

theorem occ_self (μ : Mapping) (c : Byte) (a : Nat) : occ μ c a a = [] := by simp [occ]

/-- Both passes over a region. -/
theorem fo_loop (c : Byte) (base : Nat) {e : Nat} (he : e ≤ μ.bytes.length) (hr : e < μ.bytes.length + μ.pad) :
    ∀ (n a : Nat), a ≤ e → e - a ≤ n →
      (∀ m, whileGood (foCountStep μ c) n m ⟨a, e⟩ = .ok (m + (occ μ c a e).length, ⟨e, e⟩)) ∧
      (∀ p acts, whileGood (foSetStep μ c base) n (p, acts) ⟨a, e⟩ =
        .ok ((p + (occ μ c a e).length, acts ++ blockActs p ((occ μ c a e).map (fun i => i - base))), ⟨e, e⟩)) := by
  intro n
  induction n with
  | zero =>
    intro a h1 h2
    have : a = e := by omega
    subst this
    simp [whileGood, Reader.good, occ_self, blockActs]
  | succ n ih =>
    intro a h1 h2
    by_cases hae : a = e
    · subst hae
      simp [whileGood, Reader.good, occ_self, blockActs]
    · have hlt : a < e := by omega
      obtain ⟨k, hm, hk1, hk2, hk3, hk4⟩ := moveTo_position (μ := μ) (r := ⟨a, e⟩) ⟨h1, he⟩ hlt c
      simp only at hk1 hk2 hk3 hk4 hm
      obtain ⟨b, hb⟩ := μ.get_readable (p := k) (by omega)
      have hgood : (Reader.mk a e).good = true := by simpa [Reader.good] using hlt
      obtain ⟨ih1, ih2⟩ := ih k hk2 (by omega)
      have hocc : occ μ c a e = (if μ.get k = .ok c then [k] else []) ++ occ μ c k e := by
        rw [← occ_next μ c hk1 hk3, occ_append μ c (by omega) hk2]
      have hbc : (b == c) = decide (μ.get k = .ok c) := by
        rw [hb]
        by_cases h : b = c <;> simp [h]
      constructor
      · intro m
        rw [whileGood, if_pos hgood]
        unfold foCountStep at ih1 ⊢
        simp only [hm, ok_bind, hb]
        rw [ih1, hocc, hbc]
        by_cases h : μ.get k = .ok c
        · simp [h, Nat.add_assoc, Nat.add_comm]
        · simp [h]
      · intro p acts
        rw [whileGood, if_pos hgood]
        unfold foSetStep at ih2 ⊢
        simp only [hm, ok_bind, hb]
        rw [hocc, hbc]
        by_cases h : μ.get k = .ok c
        · simp only [h, decide_true, if_true]
          rw [ih2]
          simp [blockActs, Nat.add_assoc, Nat.add_comm]
        · simp only [h, decide_false, if_false]
          rw [if_neg (by simp), ih2]
          simp

/-- Where thread `tid` starts: the cursor for thread 0, the end for "thread `T`". -/
noncomputable def foPos (μ : Mapping) (c : Byte) (r : Reader) (T tid : Nat) : Nat :=
  if tid = 0 then r.d else
    match moveTo μ c (r.plus (tid * r.size / T)) with
    | .ok r' => r'.d
    | .error _ => 0

theorem plus_ok {r : Reader} (hr : r.Ok μ) (n : Nat) : (r.plus n).Ok μ ∧ (r.plus n).e = r.e ∧
    (r.plus n).d = min (r.d + n) r.e := by
  have h1 := hr.le
  have h2 := hr.len
  unfold Reader.plus
  refine ⟨⟨?_, h2⟩, rfl, ?_⟩ <;> simp only <;> split <;> omega

/-- `move_to` from any cursor: the first occurrence behind it. -/
theorem moveTo_position' {r : Reader} (hr : r.Ok μ) (c : Byte) :
    ∃ k, moveTo μ c r = .ok ⟨k, r.e⟩ ∧ r.d ≤ k ∧ k ≤ r.e ∧ (r.d < r.e → r.d < k) ∧
      (∀ i, r.d < i → i < k → μ.get i ≠ .ok c) ∧ (k < r.e → μ.get k = .ok c) := by
  by_cases h : r.d < r.e
  · obtain ⟨k, h1, h2, h3, h4, h5⟩ := moveTo_position hr h c
    exact ⟨k, h1, by omega, h3, fun _ => h2, h4, h5⟩
  · have : r.d = r.e := by have := hr.le; omega
    refine ⟨r.d, ?_, Nat.le_refl _, by omega, fun h' => absurd h' h, fun i h1 h2 => by omega, fun h' => absurd h' h⟩
    unfold moveTo
    rw [if_neg h, ok_bind]
    unfold scan
    simp only [this, Nat.sub_self, scanN]
    cases r; simp_all

theorem foPos_facts {r : Reader} (hr : r.Ok μ) (c : Byte) {T tid : Nat} (hT : tid < T) :
    foRegion μ c r T tid = .ok ⟨foPos μ c r T tid, foPos μ c r T (tid + 1)⟩ ∧
    r.d ≤ foPos μ c r T tid ∧ foPos μ c r T tid ≤ foPos μ c r T (tid + 1) ∧ foPos μ c r T (tid + 1) ≤ r.e := by
  have hT0 : 0 < T := by omega
  obtain ⟨hb, hbe, hbd⟩ := plus_ok hr ((tid + 1) * r.size / T)
  obtain ⟨k2, g1, g2, g3, g4, g5, g6⟩ := moveTo_position' hb c
  rw [hbe] at g1 g3 g4 g6
  have hd2 : r.d ≤ k2 := by
    refine Nat.le_trans ?_ g2
    rw [hbd]
    have := hr.le
    exact Nat.le_min.mpr ⟨Nat.le_add_right _ _, this⟩
  have hp2 : foPos μ c r T (tid + 1) = k2 := by
    unfold foPos; rw [if_neg (by omega), g1]
  have hmono : tid * r.size / T ≤ (tid + 1) * r.size / T :=
    Nat.div_le_div_right (Nat.mul_le_mul_right _ (by omega))
  have hle := hr.le
  unfold foRegion
  rw [g1]
  simp only [ok_bind]
  by_cases h0 : tid = 0
  · subst h0
    have hp1 : foPos μ c r T 0 = r.d := rfl
    rw [if_neg (by simp)]
    have e0 : r.plus (0 * r.size / T) = r := by
      unfold Reader.plus
      rw [Nat.zero_mul, Nat.zero_div, if_neg (by omega)]; simp
    rw [e0, hp1, hp2]
    have h2 : r.d ≤ k2 := hd2
    refine ⟨?_, Nat.le_refl _, h2, g3⟩
    unfold Reader.smallerEnd
    simp only
    split
    · rfl
    · have : k2 = r.e := by omega
      rw [this]
  · obtain ⟨ha, hae, had⟩ := plus_ok hr (tid * r.size / T)
    obtain ⟨k1, f1, f2, f3, f4, f5, f6⟩ := moveTo_position' ha c
    rw [hae] at f1 f3 f4 f6
    have hp1 : foPos μ c r T tid = k1 := by
      unfold foPos; rw [if_neg h0, f1]
    rw [if_pos h0, f1]
    simp only [ok_bind]
    rw [hp1, hp2]
    have hk : k1 ≤ k2 := by
      -- both are first occurrences behind their cursor, and the cursors are ordered
      rcases Nat.lt_or_ge k2 k1 with h | h
      · exfalso
        by_cases hlt : (r.plus ((tid + 1) * r.size / T)).d < r.e
        · have := g4 hlt
          exact f5 k2 (by omega) h (g6 (by omega))
        · omega
      · exact h
    have hd1 : r.d ≤ k1 := by
      refine Nat.le_trans ?_ f2
      rw [had]
      have := hr.le
      exact Nat.le_min.mpr ⟨Nat.le_add_right _ _, this⟩
    refine ⟨?_, hd1, hk, g3⟩
    unfold Reader.smallerEnd
    simp only
    split
    · rfl
    · have : k2 = r.e := by omega
      rw [this]

theorem foPos_last {r : Reader} (hr : r.Ok μ) (c : Byte) {T : Nat} (hT : 0 < T) : foPos μ c r T T = r.e := by
  obtain ⟨hb, hbe, hbd⟩ := plus_ok hr (T * r.size / T)
  obtain ⟨k, g1, g2, g3, _⟩ := moveTo_position' hb c
  unfold foPos
  rw [if_neg (by omega), g1]
  rw [Nat.mul_div_cancel_left _ hT] at hbd g2
  unfold Reader.size at hbd g2
  have := hr.le
  simp only at g3 ⊢
  rw [hbe] at g3
  omega

theorem occ_all {r : Reader} (hr : r.Ok μ) (c : Byte) {T : Nat} :
    ∀ t, t ≤ T → ((List.range t).map (fun tid => occ μ c (foPos μ c r T tid) (foPos μ c r T (tid + 1)))).flatten =
      occ μ c r.d (foPos μ c r T t) ∧ r.d ≤ foPos μ c r T t := by
  intro t
  induction t with
  | zero => intro _; exact ⟨by simp [foPos, occ_self], by simp [foPos]⟩
  | succ t ih =>
    intro ht
    obtain ⟨h1, h2⟩ := ih (by omega)
    obtain ⟨_, h3, h4, h5⟩ := foPos_facts hr c (T := T) (tid := t) (by omega)
    rw [List.range_succ, List.map_append, List.flatten_append, h1]
    simp only [List.map_cons, List.map_nil, List.flatten_cons, List.flatten_nil, List.append_nil]
    exact ⟨occ_append μ c h2 h4, by omega⟩

/-- **C07**, partial: `find_offsets(c)` returns, for every number of threads and every interleaving, the increasing
list of the offsets of `c` in the reader, except for offset 0 which is never reported.  Needs the byte at the end
of the reader to be loadable and different from `c`. -/
theorem C07_find_offsets_partial (μ : Mapping) (r : Reader) (hr : r.Ok μ) (he : r.e < μ.bytes.length + μ.pad)
    (c : Byte) (hend : μ.get r.e ≠ .ok c) (T : Nat) (hT : 0 < T) (out : M (List Nat))
    (hrun : FindOffsets μ c T r out) :
    out = .ok ((List.range (r.e - r.d)).filter (fun i => decide (0 < i ∧ μ.bytes[r.d + i]? = some c))) := by
  have hle := hr.le
  have hlen := hr.len
  let seg : Nat → List Nat := fun tid => (occ μ c (foPos μ c r T tid) (foPos μ c r T (tid + 1))).map (fun i => i - r.d)
  have hreg : mapE (foRegion μ c r T) (List.range T) =
      .ok ((List.range T).map (fun tid => ⟨foPos μ c r T tid, foPos μ c r T (tid + 1)⟩)) :=
    mapE_ok _ _ _ (fun tid ht => (foPos_facts hr c (List.mem_range.mp ht)).1)
  have hloop : ∀ tid < T, _ := fun tid ht =>
    fo_loop (μ := μ) c r.d (e := foPos μ c r T (tid + 1)) (by have := foPos_facts hr c ht; omega)
      (by have := foPos_facts hr c ht; omega) _ (foPos μ c r T tid) (foPos_facts hr c ht).2.2.1 (Nat.le_refl _)
  have hcnt : mapE (foCount μ c) ((List.range T).map (fun tid => ⟨foPos μ c r T tid, foPos μ c r T (tid + 1)⟩)) =
      .ok ((List.range T).map (fun tid => (seg tid).length)) := by
    apply mapE_map_ok
    intro tid ht
    unfold foCount
    rw [(hloop tid (List.mem_range.mp ht)).1 0, ok_bind]
    simp [seg]
  have hset : ∀ offs, mapE (foSet μ c r.d offs) ((List.range T).zip ((List.range T).map
      (fun tid => ⟨foPos μ c r T tid, foPos μ c r T (tid + 1)⟩))) =
      .ok ((List.range T).map (fun tid => blockActs (startOf offs tid) (seg tid))) := by
    intro offs
    rw [zip_map_self]
    apply mapE_map_ok
    intro tid ht
    unfold foSet
    rw [(hloop tid (List.mem_range.mp ht)).2 _ [], ok_bind]
    simp [seg]
  unfold FindOffsets at hrun
  unfold foPlan at hrun
  rw [hreg, ok_bind, hcnt, ok_bind, hset, ok_bind, blockThreads_prefix, total_segs seg T hT] at hrun
  obtain ⟨junk, sched, hint, rfl⟩ := hrun
  rw [run_blockThreads_full hint _ (by simp [alloc])]
  congr 1
  have h1 : ((List.range T).map seg).flatten = (occ μ c r.d r.e).map (fun i => i - r.d) := by
    have := (occ_all hr c (T := T) T (Nat.le_refl _)).1
    rw [foPos_last hr c hT] at this
    rw [← this, List.map_flatten, List.map_map]
    rfl
  rw [h1]
  unfold occ
  -- the end itself is not an occurrence
  rcases Nat.eq_or_lt_of_le hle with h0 | h0
  · rw [h0]; simp
  have h2 : List.range' (r.d + 1) (r.e - r.d) = List.range' (r.d + 1) (r.e - r.d - 1) ++ [r.e] := by
    have := List.range'_append_1 (s := r.d + 1) (m := r.e - r.d - 1) (n := 1)
    rw [show r.e - r.d - 1 + 1 = r.e - r.d by omega] at this
    rw [← this, show r.d + 1 + (r.e - r.d - 1) = r.e by omega]; rfl
  have h3 : List.range (r.e - r.d) = 0 :: List.range' 1 (r.e - r.d - 1) := by
    rw [List.range_eq_range', show r.e - r.d = (r.e - r.d - 1) + 1 by omega, List.range'_succ]
    rw [Nat.add_sub_cancel]
  rw [h2, List.filter_append, h3, List.filter_cons_of_neg (by simpa using hend), List.filter_cons_of_neg (by simp),
    List.filter_nil, List.append_nil]
  have h4 : List.range' (r.d + 1) (r.e - r.d - 1) = (List.range' 1 (r.e - r.d - 1)).map (fun i => r.d + i) := by
    rw [List.map_add_range']
  rw [h4, List.filter_map, List.map_map]
  have h5 : ((fun i => i - r.d) ∘ fun i => r.d + i) = id := by funext i; simp
  rw [h5, List.map_id]
  apply List.filter_congr
  intro i hi
  rw [List.mem_range'_1] at hi
  simp only [Function.comp]
  have hi' : r.d + i < μ.bytes.length := by omega
  rw [μ.get_lt hi', List.getElem?_eq_getElem hi']
  simp
  omega

/-- **C07 fails**: an occurrence at offset 0 is not reported, by any execution with any number of threads. -/
theorem C07_offset_zero_violated (T : Nat) (hT : 0 < T) (out : M (List Nat))
    (hrun : FindOffsets ⟨str "\n1 2\n3\n", 1⟩ nl T (fileReader ⟨str "\n1 2\n3\n", 1⟩) out) : out = .ok [4, 6] := by
  rw [C07_find_offsets_partial _ _ ⟨by decide, by decide⟩ (by decide) nl (by decide) T hT out hrun]
  decide

/-- The offsets of newlines in a three-line file with 4 threads. -/
example : (Reader.mk 0 6).Ok ⟨str "1 2\n3\n", 10⟩ ∧ Mapping.get ⟨str "1 2\n3\n", 10⟩ 6 ≠ .ok nl ∧
    FindOffsets ⟨str "1 2\n3\n", 10⟩ nl 4 ⟨0, 6⟩ (.ok [3, 5]) := by
  refine ⟨⟨by decide, by decide⟩, by decide, ?_⟩
  have h : foPlan ⟨str "1 2\n3\n", 10⟩ nl 4 ⟨0, 6⟩ = .ok (2, [[(0, 3)], [(1, 5)], [], []]) := by decide
  unfold FindOffsets
  rw [h]
  exact ⟨fun _ => 0, _, interleave_flatten _, by decide⟩

end Pigo
