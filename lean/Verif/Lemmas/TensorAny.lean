import Verif.Lemmas.TensorLoad
import Verif.Lemmas.Robust

/-!
# Tensors without weights out of any text

What the two passes of a thread do on an arbitrary region of an arbitrary file.
-/

namespace Pigo

variable {W : Type} {μ : Mapping} {e : Nat}

/-- Up to `k` integers out of `s`, each followed by a byte at least; and what is left behind the last one (`none`: the
text ended before). -/
def takeInts : Nat → List Byte → List Nat × Option (List Byte)
  | 0, s => ([], some s)
  | k+1, s =>
    if (toDigitL s).dropWhile isDigit = [] then ([], none)
    else (decVal ((toDigitL s).takeWhile isDigit) :: (takeInts k ((toDigitL s).dropWhile isDigit)).1, (takeInts k ((toDigitL s).dropWhile isDigit)).2)

theorem takeInts_len : ∀ (k : Nat) (s : List Byte),
    (∀ s', (takeInts k s).2 = some s' → (takeInts k s).1.length = k ∧ s' <:+ s ∧ s'.length + k ≤ s.length) ∧
    ((takeInts k s).2 = none → (takeInts k s).1.length < k ∧ (takeInts k s).1.length ≤ s.length)
  | 0, s => by
    refine ⟨fun s' h => ?_, fun h => by cases h⟩
    cases h
    exact ⟨rfl, List.suffix_refl _, Nat.le_refl _⟩
  | k+1, s => by
    rw [takeInts]
    split
    · exact ⟨fun s' h => by simp at h, fun _ => ⟨Nat.succ_pos _, Nat.zero_le _⟩⟩
    · rename_i hne
      have hsuf : (toDigitL s).dropWhile isDigit <:+ s := (dropWhile_suffix' _ _).trans (dropWhile_suffix' _ _)
      have hlt : ((toDigitL s).dropWhile isDigit).length + 1 ≤ s.length := by
        cases hd : toDigitL s with
        | nil => rw [hd] at hne; exact absurd rfl hne
        | cons c t =>
          have hc : isDigit c = true := by
            have := List.head?_dropWhile_not (p := fun b => !isDigit b) (l := s)
            rw [show s.dropWhile (fun b => !isDigit b) = c :: t from hd] at this
            simpa using this
          have h1 : (c :: t).length ≤ s.length := by rw [← hd]; exact (dropWhile_suffix' _ s).length_le
          rw [List.dropWhile_cons, hc]
          have := (dropWhile_suffix' isDigit t).length_le
          simp only [if_true, List.length_cons] at *
          omega
      obtain ⟨i1, i2⟩ := takeInts_len k ((toDigitL s).dropWhile isDigit)
      refine ⟨fun s' h => ?_, fun h => ?_⟩
      · obtain ⟨h1, h2, h3⟩ := i1 s' h
        exact ⟨by simp only [List.length_cons, h1], h2.trans hsuf, by omega⟩
      · obtain ⟨h1, h2⟩ := i2 h
        simp only [List.length_cons]
        exact ⟨by omega, by omega⟩

theorem skipCoords_any {lw : Nat} : ∀ {k : Nat} {s : List Byte}, View μ e s →
    skipCoords μ lw wNone k (rd e s) = .ok (match (takeInts k s).2 with | none => (false, rd e []) | some s' => (true, rd e s'))
  | 0, s, _ => rfl
  | k+1, s, v => by
    have v2 : View μ e ((toDigitL s).dropWhile isDigit) := v.of_suffix ((dropWhile_suffix' _ _).trans (dropWhile_suffix' _ _))
    rw [skipCoords, takeInts]
    simp only [wNone, Bool.false_eq_true, if_false, readInt_wrapU lw v, ok_bind, good_rd v2]
    by_cases h : (toDigitL s).dropWhile isDigit = []
    · simp [h]
    · rw [if_neg h]
      have : ((toDigitL s).dropWhile isDigit).isEmpty = false := by simpa using h
      simp only [this, Bool.not_false, Bool.not_true, Bool.false_eq_true, if_false]
      exact skipCoords_any v2

theorem readCoords_any {lw order pos : Nat} : ∀ {k idx : Nat} {acts : List (TAct Unit)} {s : List Byte}, View μ e s →
    readCoords μ lw order pos k idx acts (rd e s) = .ok ((takeInts k s).2.isSome,
      acts ++ coordActs (pos * order + idx) ((takeInts k s).1.map (· % 2 ^ lw)), rd e ((takeInts k s).2.getD []))
  | 0, idx, acts, s, _ => by simp [readCoords, takeInts, coordActs]
  | k+1, idx, acts, s, v => by
    have v2 : View μ e ((toDigitL s).dropWhile isDigit) := v.of_suffix ((dropWhile_suffix' _ _).trans (dropWhile_suffix' _ _))
    rw [readCoords, takeInts]
    simp only [readInt_wrapU lw v, ok_bind, good_rd v2]
    by_cases h : (toDigitL s).dropWhile isDigit = []
    · simp [h, coordActs]
    · rw [if_neg h]
      have : ((toDigitL s).dropWhile isDigit).isEmpty = false := by simpa using h
      simp only [this, Bool.not_false, Bool.not_true, Bool.false_eq_true, if_false]
      rw [readCoords_any v2]
      simp [coordActs, Nat.add_assoc]

/-- The entries of a region: how many are complete, and all their values with those of an incomplete last one. -/
def tScan (k : Nat) : Nat → List Byte → Nat × List Nat
  | 0, _ => (0, [])
  | n+1, s => if s = [] then (0, []) else
    match (takeInts k s).2 with
    | none => (0, (takeInts k s).1)
    | some s' => ((tScan k n (nextLineL s')).1 + 1, (takeInts k s).1 ++ (tScan k n (nextLineL s')).2)

theorem nextLineL_suffix (s : List Byte) : nextLineL s <:+ s :=
  (toStop_suffix _ _ _).trans ((dropWhile_suffix' _ _).trans (dropWhile_suffix' _ _))

theorem tScan_len {k : Nat} (hk : 0 < k) : ∀ (n : Nat) (s : List Byte),
    (tScan k n s).1 * k ≤ (tScan k n s).2.length ∧ (tScan k n s).2.length < (tScan k n s).1 * k + k ∧ (tScan k n s).2.length ≤ s.length
  | 0, s => ⟨by simp [tScan], by simpa [tScan] using hk, by simp [tScan]⟩
  | n+1, s => by
    rw [tScan]
    split
    · exact ⟨by simp, by simpa using hk, by simp⟩
    · obtain ⟨i1, i2⟩ := takeInts_len k s
      cases h : (takeInts k s).2 with
      | none =>
        obtain ⟨h1, h2⟩ := i2 h
        simp only
        exact ⟨by simp, by simpa using h1, h2⟩
      | some s' =>
        obtain ⟨h1, h2, h3⟩ := i1 s' h
        obtain ⟨j1, j2, j3⟩ := tScan_len hk n (nextLineL s')
        have := (nextLineL_suffix s').length_le
        simp only [List.length_append, h1, Nat.succ_mul]
        exact ⟨by omega, by omega, by omega⟩

theorem coordActs_append (b : Nat) (xs ys : List Nat) : (coordActs b (xs ++ ys) : List (TAct W)) = coordActs b xs ++ coordActs (b + xs.length) ys := by
  induction xs generalizing b with
  | nil => rfl
  | cons x xs ih =>
    simp only [List.cons_append, coordActs, ih, List.length_cons]
    rw [show b + 1 + xs.length = b + (xs.length + 1) by omega]

theorem countLoop_any {lw k : Nat} (hk : 0 < k) (hr : Readable μ e) : ∀ (n : Nat) (s : List Byte), s.length ≤ n → View μ e s → ∀ pos : Nat,
    whileGood (tensorCount μ lw wNone k) n pos (rd e s) = .ok (pos + (tScan k n s).1, rd e [])
  | 0, s, h, v, pos => by
    have : s = [] := List.length_eq_zero_iff.mp (by omega)
    subst this
    simp [whileGood, good_rd v, tScan]
  | n+1, s, h, v, pos => by
    rw [whileGood, good_rd v, tScan]
    by_cases hs : s = []
    · simp [hs]
    · rw [if_neg hs]
      have : s.isEmpty = false := by simpa using hs
      simp only [this, Bool.not_false, if_true]
      obtain ⟨i1, i2⟩ := takeInts_len k s
      rw [tensorCount, skipCoords_any v]
      cases h' : (takeInts k s).2 with
      | none =>
        simp only [ok_bind, Bool.not_false, if_true]
        have v0 : View μ e [] := v.of_suffix (List.nil_suffix)
        cases n <;> simp [whileGood, good_rd v0]
      | some s' =>
        obtain ⟨h1, h2, h3⟩ := i1 s' h'
        have v1 := v.of_suffix h2
        have v2 : View μ e (eolL s') := v1.of_suffix (dropWhile_suffix' _ _)
        have v3 := v1.of_suffix (nextLineL_suffix s')
        have := (nextLineL_suffix s').length_le
        simp only [ok_bind, Bool.not_true, Bool.false_eq_true, if_false]
        rw [moveToEol_eq v1, ok_bind, moveToNextInt_eq v2 hr]
        simp only [ok_bind]
        rw [countLoop_any hk hr n _ (by omega) v3]
        rw [Nat.add_assoc, Nat.add_comm 1]

theorem setLoop_any {lw k : Nat} (hk : 0 < k) (hr : Readable μ e) : ∀ (n : Nat) (s : List Byte), s.length ≤ n → View μ e s →
    ∀ (pos : Nat) (acts : List (TAct Unit)),
    whileGood (tensorSet μ lw wNone k) n (pos, acts) (rd e s) =
      .ok ((pos + (tScan k n s).1, acts ++ coordActs (pos * k) ((tScan k n s).2.map (· % 2 ^ lw))), rd e [])
  | 0, s, h, v, pos, acts => by
    have : s = [] := List.length_eq_zero_iff.mp (by omega)
    subst this
    simp [whileGood, good_rd v, tScan, coordActs]
  | n+1, s, h, v, pos, acts => by
    rw [whileGood, good_rd v, tScan]
    by_cases hs : s = []
    · simp [hs, coordActs]
    · rw [if_neg hs]
      have : s.isEmpty = false := by simpa using hs
      simp only [this, Bool.not_false, if_true]
      obtain ⟨i1, i2⟩ := takeInts_len k s
      rw [tensorSet]
      simp only
      rw [readCoords_any v]
      cases h' : (takeInts k s).2 with
      | none =>
        simp only [ok_bind, Option.isSome_none, Bool.not_false, if_true, Option.getD_none]
        have v0 : View μ e [] := v.of_suffix (List.nil_suffix)
        cases n <;> simp [whileGood, good_rd v0]
      | some s' =>
        obtain ⟨h1, h2, h3⟩ := i1 s' h'
        have v1 := v.of_suffix h2
        have v2 : View μ e (eolL s') := v1.of_suffix (dropWhile_suffix' _ _)
        have v3 := v1.of_suffix (nextLineL_suffix s')
        have := (nextLineL_suffix s').length_le
        simp only [ok_bind, Option.isSome_some, Bool.not_true, Bool.false_eq_true, if_false, wNone, Option.getD_some]
        rw [moveToEol_eq v1, ok_bind, moveToNextInt_eq v2 hr]
        simp only [ok_bind]
        have := setLoop_any (lw := lw) hk hr n (nextLineL s') (by omega) v3 (pos + 1)
          (acts ++ coordActs (pos * k + 0) ((takeInts k s).1.map (· % 2 ^ lw)))
        simp only [wNone] at this
        rw [this]
        simp only [List.map_append, coordActs_append, List.length_map, h1, Nat.add_zero, List.append_assoc, Nat.succ_mul]
        rw [Nat.add_assoc, Nat.add_comm 1]

/-! ## The order -/

theorem get_head (hpad : 0 < μ.pad) {s : List Byte} (v : View μ μ.bytes.length s) : μ.get (rd μ.bytes.length s).d = .ok (s.headD 0) := by
  cases s with
  | nil => exact μ.get_pad (Nat.le_refl _) (by simp [rd]; omega)
  | cons c t => exact v.get_d

theorem skipSpacesN_any (hpad : 0 < μ.pad) : ∀ (n : Nat) (s : List Byte), s.length < n → View μ μ.bytes.length s →
    skipSpacesN μ n (rd μ.bytes.length s) = .ok (rd μ.bytes.length (s.dropWhile (· == 32)))
  | 0, _, h, _ => by omega
  | n+1, s, h, v => by
    rw [skipSpacesN, get_head hpad v, ok_bind]
    cases s with
    | nil => rfl
    | cons c t =>
      rw [List.headD_cons, List.dropWhile_cons]
      split
      · rw [v.adv]; exact skipSpacesN_any hpad n t (by simpa using h) v.tail
      · rfl

theorem eolL_dropWhile (P : Byte → Bool) (hP : P nl = false) (s : List Byte) : eolL (s.dropWhile P) = eolL s := by
  induction s with
  | nil => rfl
  | cons c s ih =>
    rw [List.dropWhile_cons]
    by_cases hc : P c = true
    · rw [if_pos hc, ih]
      have : c ≠ nl := fun h => by rw [h, hP] at hc; cases hc
      unfold eolL
      rw [List.dropWhile_cons, if_pos (by simpa using this)]
    · rw [if_neg hc]

theorem eolL_head {c : Byte} {t : List Byte} (h : c = nl) : eolL (c :: t) = c :: t := by
  unfold eolL
  rw [List.dropWhile_cons, if_neg (by simp [h])]

theorem eolL_headD {s : List Byte} (h : s.headD 0 = nl) : eolL s = s := by
  cases s with
  | nil => rfl
  | cons c t => exact eolL_head h

theorem countSpacesN_any (hpad : 0 < μ.pad) : ∀ (n : Nat) (s : List Byte) (ct : Nat), s.length ≤ n → View μ μ.bytes.length s →
    ∃ c, countSpacesN μ n ct (rd μ.bytes.length s) = .ok (ct + c, rd μ.bytes.length (eolL s)) ∧ c ≤ s.length
  | 0, s, ct, h, v => by
    have : s = [] := List.length_eq_zero_iff.mp (by omega)
    subst this
    exact ⟨0, by simp [countSpacesN, rd, eolL], Nat.le_refl _⟩
  | n+1, [], ct, h, v => ⟨0, by simp [countSpacesN, rd, eolL], Nat.le_refl _⟩
  | n+1, a :: s, ct, h, v => by
    rw [countSpacesN, if_pos v.lt, v.get_d, ok_bind]
    split
    · rename_i hb
      refine ⟨0, ?_, Nat.zero_le _⟩
      rw [eolL_head (t := s) (by simpa using hb)]; rfl
    generalize hs1 : (a :: s).dropWhile (fun b => b != nl && !isCom b && !isDigit b) = s1
    have hsuf1 : s1 <:+ a :: s := hs1 ▸ dropWhile_suffix' _ _
    have v1 := v.of_suffix hsuf1
    have he1 : eolL s1 = eolL (a :: s) := by rw [← hs1]; exact eolL_dropWhile _ (by decide) _
    rw [scan_eq _ v, hs1, ok_bind, get_head hpad v1, ok_bind]
    split
    · rw [moveToEol_eq v1, ok_bind, he1]; exact ⟨0, rfl, Nat.zero_le _⟩
    rename_i hd
    cases s1 with
    | nil => simp [isDigit] at hd
    | cons d t =>
      generalize hs2 : (d :: t).dropWhile (fun b => isDigit b || b == 46) = s2
      have hlen2 : s2.length ≤ t.length := by
        rw [← hs2, List.dropWhile_cons]
        have : isDigit d = true := by simpa using hd
        simp only [this, Bool.true_or, if_true]
        exact (dropWhile_suffix' _ _).length_le
      have v2 : View μ μ.bytes.length s2 := v1.of_suffix (hs2 ▸ dropWhile_suffix' _ _)
      have hl1 := hsuf1.length_le
      simp only [List.length_cons] at hl1 h
      rw [scan_eq _ v1, hs2, ok_bind, get_head hpad v2, ok_bind]
      have he2 : eolL s2 = eolL (a :: s) := by rw [← he1, ← hs2]; exact eolL_dropWhile _ (by decide) _
      split
      · rename_i hb
        exact ⟨0, by rw [← he2, eolL_headD (by simpa using hb)]; rfl, Nat.zero_le _⟩
      split
      · rw [moveToEol_eq v2, ok_bind, he2]; exact ⟨0, rfl, Nat.zero_le _⟩
      have hlt : s2.length < μ.bytes.length - (rd μ.bytes.length s2).d + 1 := by
        have := v2.length_le
        simp only [rd]; omega
      have v3 : View μ μ.bytes.length (s2.dropWhile (· == 32)) := v2.of_suffix (dropWhile_suffix' _ _)
      have hl3 := (dropWhile_suffix' (· == 32) s2).length_le
      rw [skipSpaces, skipSpacesN_any hpad _ _ hlt v2, ok_bind, get_head hpad v3, ok_bind]
      have he3 : eolL (s2.dropWhile (· == 32)) = eolL (a :: s) := by rw [← he2]; exact eolL_dropWhile _ (by decide) _
      split
      · rename_i hb
        exact ⟨0, by rw [← he3, eolL_headD (by simpa using hb)]; rfl, Nat.zero_le _⟩
      split
      · rw [moveToEol_eq v3, ok_bind, he3]; exact ⟨0, rfl, Nat.zero_le _⟩
      obtain ⟨c, hc, hcl⟩ := countSpacesN_any hpad n (s2.dropWhile (· == 32)) (ct + 1) (by omega) v3
      exact ⟨1 + c, by rw [hc, Nat.add_assoc, he3], by simp only [List.length_cons]; omega⟩

/-- The order of any file at all. -/
theorem tensorOrder_any (hpad : 0 < μ.pad) {ow : Nat} (hm : μ.bytes.length + 1 < 2 ^ ow) (wgt : Bool) :
    ∃ k, tensorOrder μ ow wgt (fileReader μ) = .ok k ∧ (wgt = false → 0 < k) ∧ k ≤ μ.bytes.length + 1 := by
  have hr : Readable μ μ.bytes.length := by unfold Readable; omega
  have hrd : fileReader μ = rd μ.bytes.length μ.bytes := by simp [fileReader, rd]
  have v := (View.full μ).of_suffix (toStop_suffix isDigit false μ.bytes)
  obtain ⟨c, hc, hcl⟩ := countSpacesN_any hpad _ _ 0 (Nat.le_of_eq v.sub.symm) v
  have hl := (toStop_suffix isDigit false μ.bytes).length_le
  unfold tensorOrder
  rw [hrd, moveToFirstInt_eq (View.full μ) hr, ok_bind]
  unfold countSpaces
  rw [hc, ok_bind]
  simp only [Nat.zero_add]
  rw [Nat.mod_eq_of_lt (show c < 2 ^ ow by omega), Nat.mod_eq_of_lt (show c + 1 < 2 ^ ow by omega)]
  refine ⟨_, rfl, ?_, ?_⟩
  · rintro rfl; simp
  · split <;> omega

/-! ## All threads -/

/-- The part of thread `tid`: complete entries, and all values. -/
def tPart (k : Nat) (s : List Byte) (T tid : Nat) : Nat × List Nat := tScan k (regL s T tid).length (regL s T tid)

/-- Complete entries of the threads before `tid`. -/
def tStart (k : Nat) (s : List Byte) (T tid : Nat) : Nat := ((List.range tid).map (fun t => (tPart k s T t).1)).sum

theorem tStart_succ (k : Nat) (s : List Byte) (T tid : Nat) : tStart k s T (tid+1) = tStart k s T tid + (tPart k s T tid).1 := by
  simp [tStart, List.range_succ]

theorem tStart_mono (k : Nat) (s : List Byte) (T : Nat) {a b : Nat} (h : a ≤ b) : tStart k s T a ≤ tStart k s T b := by
  induction b with
  | zero => rw [show a = 0 by omega]; exact Nat.le_refl _
  | succ b ih =>
    rcases Nat.eq_or_lt_of_le h with rfl | h
    · exact Nat.le_refl _
    · rw [tStart_succ]; have := ih (by omega); omega

theorem regL_length (s : List Byte) (T tid : Nat) : (regL s T tid).length + (startL s T (tid+1)).length = (startL s T tid).length := by
  have := (startL_mono s T tid).length_le
  simp only [regL, List.length_take]
  omega

/-- The complete entries fit in the file. -/
theorem tStart_le {k : Nat} (hk : 0 < k) (s : List Byte) (T : Nat) : ∀ tid, tStart k s T tid * k + (startL s T tid).length ≤ s.length
  | 0 => by
    have : tStart k s T 0 = 0 := rfl
    rw [this, Nat.zero_mul, Nat.zero_add]
    exact (startL_suffix s T 0).length_le
  | tid+1 => by
    have h1 := tStart_le hk s T tid
    have h2 := regL_length s T tid
    obtain ⟨h3, _, h4⟩ := tScan_len hk (regL s T tid).length (regL s T tid)
    have h5 : (tPart k s T tid).1 * k ≤ (regL s T tid).length := Nat.le_trans h3 h4
    rw [tStart_succ, Nat.add_mul]
    omega

theorem prefixSums_sum (f : Nat → Nat) (T t : Nat) (ht : t ≤ T) : startOf (prefixSums 0 ((List.range T).map f)) t = ((List.range t).map f).sum ∨ T ≤ t := by
  by_cases h : t < T
  · left
    rw [startOf_eq _ _ (by simp; omega), ← List.map_take, List.take_range, Nat.min_eq_left (by omega)]
  · right; omega

/-- What `Tensor::read_el_` does on any text at all. -/
theorem tensorPlan_any {s : List Byte} (v : View μ e s) (hr : Readable μ e) {lw ow k T : Nat} (hk : 0 < k) (hT : 0 < T)
    (ho : tensorOrder μ ow false (rd e s) = .ok k) :
    tensorPlan μ lw ow wNone T (rd e s) = .ok
      { order := k, m := tStart k s T T % 2 ^ ow
        threads := (List.range T).map (fun tid => coordActs (tStart k s T tid * k) ((tPart k s T tid).2.map (· % 2 ^ lw))) } := by
  have hreg : mapE (elRegion μ (rd e s) T) (List.range T) =
      .ok ((List.range T).map (fun tid => rd (e - (startL s T (tid+1)).length) (regL s T tid))) :=
    mapE_ok _ _ _ (fun tid ht => by
      obtain ⟨R, h1, h2, _⟩ := elRegion_any v hr (List.mem_range.mp ht)
      rw [h2]
      have : regL s T tid = R := by unfold regL; rw [h1]; simp
      rw [this])
  have hv : ∀ tid, tid < T → View μ (e - (startL s T (tid+1)).length) (regL s T tid) ∧ Readable μ (e - (startL s T (tid+1)).length) := by
    intro tid ht
    obtain ⟨R, h1, _, h3, h4⟩ := elRegion_any v hr ht
    have : regL s T tid = R := by unfold regL; rw [h1]; simp
    rw [this]; exact ⟨h3, h4⟩
  have hcount : mapE (tensorCountAll μ lw wNone k) ((List.range T).map (fun tid => rd (e - (startL s T (tid+1)).length) (regL s T tid))) =
      .ok ((List.range T).map (fun tid => (tPart k s T tid).1)) := by
    apply mapE_map
    intro tid ht
    obtain ⟨v', r'⟩ := hv tid (List.mem_range.mp ht)
    rw [tensorCountAll, v'.sub, countLoop_any hk r' _ _ (Nat.le_refl _) v', ok_bind, Nat.zero_add]
    rfl
  have hset : mapE (tensorSetAll μ lw wNone k (prefixSums 0 ((List.range T).map (fun tid => (tPart k s T tid).1)))) ((List.range T).zip
        ((List.range T).map (fun tid => rd (e - (startL s T (tid+1)).length) (regL s T tid)))) =
      .ok ((List.range T).map (fun tid => coordActs (tStart k s T tid * k) ((tPart k s T tid).2.map (· % 2 ^ lw)))) := by
    rw [zip_map_self]
    apply mapE_map
    intro tid ht
    have htT := List.mem_range.mp ht
    obtain ⟨v', r'⟩ := hv tid htT
    rw [tensorSetAll]
    simp only
    rw [v'.sub, setLoop_any hk r' _ _ (Nat.le_refl _) v', ok_bind]
    rcases prefixSums_sum (fun tid => (tPart k s T tid).1) T tid (by omega) with h | h
    · rw [h]; rfl
    · omega
  unfold tensorPlan
  simp only [show wNone.wgt = false from rfl, ho, ok_bind, hreg, hcount, hset]
  congr 2
  rw [prefixSums_getD _ _ _ (by simp; omega)]
  rw [show T - 1 + 1 = T by omega, List.take_of_length_le (by simp), Nat.zero_add]
  rfl

/-! ## Execution -/

theorem store_ok {α : Type} {a : List α} {i : Nat} (h : i < a.length) (x : α) : store a i x = .ok (a.set i x) := by
  simp [store, h]

theorem store_bad {α : Type} {a : List α} {i : Nat} (h : a.length ≤ i) (x : α) : store a i x = .error .oob := by
  simp [store, Nat.not_lt.mpr h]

/-- A store outside of the array, among others. -/
theorem runT_oob : ∀ (acts : List (TAct W)) (c : List Nat) (w : List W), (∀ a ∈ acts, ∃ i x, a = .setC i x) →
    (∃ i x, TAct.setC i x ∈ acts ∧ c.length ≤ i) → runActs stepT acts ⟨c, w⟩ = .error .oob
  | [], _, _, _, ⟨_, _, h, _⟩ => by cases h
  | a :: acts, c, w, hset, ⟨i, x, hm, hi⟩ => by
    obtain ⟨j, y, rfl⟩ := hset a (List.mem_cons_self ..)
    rw [runActs, stepT]
    by_cases hj : j < c.length
    · simp only [store_ok hj, ok_bind]
      refine runT_oob acts _ w (fun a ha => hset a (List.mem_cons_of_mem _ ha)) ⟨i, x, ?_, by simpa using hi⟩
      rcases List.mem_cons.mp hm with h | h
      · injection h with h1 _; omega
      · exact h
    · simp only [store_bad (Nat.le_of_not_lt hj)]; rfl

/-- Stores inside of the array: every element is one of the values stored there, if there are any. -/
theorem runT_in : ∀ (acts : List (TAct W)) (c : List Nat) (w : List W), (∀ a ∈ acts, ∃ i x, a = .setC i x ∧ i < c.length) →
    ∃ c', runActs stepT acts ⟨c, w⟩ = .ok ⟨c', w⟩ ∧ c'.length = c.length ∧
      ∀ i x, c'[i]? = some x → TAct.setC i x ∈ acts ∨ ((∀ y, TAct.setC i y ∉ acts) ∧ c[i]? = some x)
  | [], c, w, _ => ⟨c, rfl, rfl, fun i x h => .inr ⟨fun y hy => (by cases hy), h⟩⟩
  | a :: acts, c, w, hset => by
    obtain ⟨j, y, rfl, hj⟩ := hset a (List.mem_cons_self ..)
    obtain ⟨c', h1, h2, h3⟩ := runT_in acts (c.set j y) w (fun a ha => by
      obtain ⟨i, x, h, hi⟩ := hset a (List.mem_cons_of_mem _ ha)
      exact ⟨i, x, h, by simpa using hi⟩)
    refine ⟨c', ?_, by rw [h2, List.length_set], fun i x h => ?_⟩
    · rw [runActs, stepT]
      simp only [store_ok hj, ok_bind]
      exact h1
    · rcases h3 i x h with h | ⟨h, h'⟩
      · exact .inl (List.mem_cons_of_mem _ h)
      · by_cases hij : j = i
        · subst hij
          rw [List.getElem?_set_self hj] at h'
          cases h'
          exact .inl (List.mem_cons_self ..)
        · refine .inr ⟨fun z hz => ?_, by rwa [List.getElem?_set_ne hij] at h'⟩
          rcases List.mem_cons.mp hz with hz | hz
          · injection hz with hz _; exact hij hz.symm
          · exact h z hz

theorem mem_coordActs {b : Nat} {xs : List Nat} {a : TAct W} : a ∈ (coordActs b xs : List (TAct W)) ↔ ∃ j x, xs[j]? = some x ∧ a = .setC (b + j) x := by
  induction xs generalizing b with
  | nil => simp [coordActs]
  | cons y xs ih =>
    rw [coordActs, List.mem_cons, ih]
    constructor
    · rintro (rfl | ⟨j, x, h, rfl⟩)
      · exact ⟨0, y, rfl, rfl⟩
      · exact ⟨j + 1, x, h, by rw [Nat.add_assoc, Nat.add_comm 1]⟩
    · rintro ⟨j, x, h, rfl⟩
      cases j with
      | zero => cases h; exact .inl rfl
      | succ j => exact .inr ⟨j, x, h, by rw [Nat.add_assoc, Nat.add_comm 1]⟩

/-- The stores of all threads. -/
abbrev tAll (k lw : Nat) (s : List Byte) (T : Nat) : List (List (TAct Unit)) :=
  (List.range T).map (fun tid => coordActs (tStart k s T tid * k) ((tPart k s T tid).2.map (· % 2 ^ lw)))

theorem mem_sched {k lw : Nat} {s : List Byte} {T : Nat} {sched : List (TAct Unit)} (h : Interleave (tAll k lw s T) sched) {a : TAct Unit} :
    a ∈ sched ↔ ∃ tid < T, ∃ j x, (tPart k s T tid).2[j]? = some x ∧ a = .setC (tStart k s T tid * k + j) (x % 2 ^ lw) := by
  rw [h.perm.mem_iff, List.mem_flatten]
  constructor
  · rintro ⟨l, hl, ha⟩
    obtain ⟨tid, ht, rfl⟩ := List.mem_map.mp hl
    obtain ⟨j, x, hx, rfl⟩ := mem_coordActs.mp ha
    rw [List.getElem?_map] at hx
    cases hy : (tPart k s T tid).2[j]? with
    | none => rw [hy] at hx; cases hx
    | some y => rw [hy] at hx; cases hx; exact ⟨tid, List.mem_range.mp ht, j, y, hy, rfl⟩
  · rintro ⟨tid, ht, j, x, hx, rfl⟩
    exact ⟨_, List.mem_map.mpr ⟨tid, List.mem_range.mpr ht, rfl⟩, mem_coordActs.mpr ⟨j, x % 2 ^ lw, by rw [List.getElem?_map, hx]; rfl, rfl⟩⟩

/-- Thread `tid` ends within an entry. -/
def Torn (k : Nat) (s : List Byte) (T tid : Nat) : Prop := (tPart k s T tid).2.length ≠ (tPart k s T tid).1 * k

/-- The value at position `i` of the complete entries. -/
theorem covered {k : Nat} (hk : 0 < k) (s : List Byte) : ∀ (T n : Nat) (i : Nat), i < tStart k s T n * k →
    ∃ tid < n, ∃ j x, (tPart k s T tid).2[j]? = some x ∧ i = tStart k s T tid * k + j ∧ j < (tPart k s T tid).1 * k
  | T, 0, i, h => by simp [tStart] at h
  | T, n+1, i, h => by
    by_cases hi : i < tStart k s T n * k
    · obtain ⟨tid, ht, h⟩ := covered hk s T n i hi
      exact ⟨tid, by omega, h⟩
    · rw [tStart_succ, Nat.add_mul] at h
      have h2 := (tScan_len hk (regL s T n).length (regL s T n)).1
      have h3 : i - tStart k s T n * k < (tPart k s T n).2.length := by
        show _ < (tScan k _ _).2.length
        have : (tPart k s T n).1 = (tScan k (regL s T n).length (regL s T n)).1 := rfl
        rw [this] at h
        omega
      exact ⟨n, by omega, i - tStart k s T n * k, _, List.getElem?_eq_getElem h3, by omega, by omega⟩

theorem flatten_parts (k lw : Nat) (s : List Byte) (T : Nat) : ∀ n, (∀ tid < n, ¬ Torn k s T tid) →
    ((List.range n).map (fun tid => (coordActs (tStart k s T tid * k) ((tPart k s T tid).2.map (· % 2 ^ lw)) : List (TAct W)))).flatten =
      coordActs 0 (((List.range n).map (fun tid => (tPart k s T tid).2.map (· % 2 ^ lw))).flatten) ∧
    ((((List.range n).map (fun tid => (tPart k s T tid).2.map (· % 2 ^ lw))).flatten).length = tStart k s T n * k)
  | 0, _ => ⟨rfl, by simp [tStart]⟩
  | n+1, h => by
    obtain ⟨h1, h2⟩ := flatten_parts k lw s T n (fun t ht => h t (by omega))
    have h3 : (tPart k s T n).2.length = (tPart k s T n).1 * k := Decidable.not_not.mp (h n (by omega))
    simp only [List.range_succ, List.map_append, List.flatten_append, List.map_cons, List.map_nil, List.flatten_cons, List.flatten_nil, List.append_nil]
    rw [h1, coordActs_append, h2, Nat.zero_add]
    refine ⟨rfl, ?_⟩
    rw [List.length_append, h2, List.length_map, h3, tStart_succ, Nat.add_mul]

/-- Every execution of `Tensor::read_el_` on any text. -/
theorem readTensorEl_any {s : List Byte} (v : View μ e s) (hr : Readable μ e) {lw ow k T : Nat} (hk : 0 < k) (hT : 0 < T)
    (ho : tensorOrder μ ow false (rd e s) = .ok k) (hfit : s.length < 2 ^ ow) :
    ((∃ tid < T, Torn k s T tid ∧ tStart k s T (tid+1) = tStart k s T T) →
      ∀ out, (readTensorEl μ lw ow wNone T (rd e s)).Out out → out = .error .oob) ∧
    ((∀ tid < T, Torn k s T tid → tStart k s T (tid+1) ≠ tStart k s T T) →
      (readTensorEl μ lw ow wNone T (rd e s)).All (fun t => t.order = k ∧ t.m = tStart k s T T ∧ t.c.length = k * t.m ∧ t.w = [] ∧ ∀ x ∈ t.c, x < 2 ^ lw)) ∧
    ((∀ tid < T, ¬ Torn k s T tid) →
      (readTensorEl μ lw ow wNone T (rd e s)).All (fun t =>
        t = ⟨((List.range T).map (fun tid => (tPart k s T tid).2.map (· % 2 ^ lw))).flatten, [], k, tStart k s T T⟩)) := by
  have hM := tStart_le hk s T T
  have hM' : tStart k s T T ≤ tStart k s T T * k := Nat.le_mul_of_pos_right _ hk
  have hm : tStart k s T T % 2 ^ ow = tStart k s T T := Nat.mod_eq_of_lt (by omega)
  have hkm : inOrd ow (k * tStart k s T T) = k * tStart k s T T := inOrd_lt (by rw [Nat.mul_comm]; omega)
  have hplan := tensorPlan_any (lw := lw) v hr hk hT ho
  have hlen : ∀ jc : Nat → Nat, (alloc jc (k * tStart k s T T)).length = tStart k s T T * k := by
    intro jc; simp [alloc, Nat.mul_comm]
  have hpart : ∀ tid, (tPart k s T tid).1 * k ≤ (tPart k s T tid).2.length ∧ (tPart k s T tid).2.length < (tPart k s T tid).1 * k + k := fun tid =>
    ⟨(tScan_len hk _ _).1, (tScan_len hk _ _).2.1⟩
  unfold readTensorEl
  refine ⟨?_, ?_, ?_⟩
  · rintro ⟨tid, ht, htorn, hend⟩ out ⟨_, rfl, h⟩
    rw [hplan] at h
    obtain ⟨_, ⟨jc, _, rfl⟩, h⟩ := h
    obtain ⟨_, ⟨jw, _, rfl⟩, h⟩ := h
    obtain ⟨o, ⟨sched, hs, rfl⟩, h⟩ := h
    simp only [hm, hkm] at h
    rw [runT_oob] at h
    · exact h
    · intro a ha
      obtain ⟨_, _, _, _, _, rfl⟩ := (mem_sched hs).mp ha
      exact ⟨_, _, rfl⟩
    · have h1 := hpart tid
      unfold Torn at htorn
      have hlt : (tPart k s T tid).1 * k < (tPart k s T tid).2.length := by omega
      refine ⟨_, _, (mem_sched hs).mpr ⟨tid, ht, (tPart k s T tid).1 * k, _, List.getElem?_eq_getElem hlt, rfl⟩, ?_⟩
      rw [hlen, ← hend, tStart_succ, Nat.add_mul]
      exact Nat.le_refl _
  · intro htorn
    refine R.All.bind (R.All.lift hplan rfl) (fun p hp => ?_)
    subst hp
    refine R.All.bind R.All.any (fun jc _ => R.All.bind R.All.any (fun jw _ => ?_))
    refine R.All.bind (P := fun mem => mem.c.length = k * tStart k s T T ∧ mem.w = [] ∧ ∀ x ∈ mem.c, x < 2 ^ lw)
      (R.All.par (fun sched hs => ?_)) (fun mem hmem => ?_)
    · simp only [hm, hkm]
      obtain ⟨c', h1, h2, h3⟩ := runT_in sched (alloc jc (k * tStart k s T T)) (if wNone.wgt = true then alloc jw (tStart k s T T) else []) (fun a ha => by
        obtain ⟨tid, ht, j, x, hx, rfl⟩ := (mem_sched hs).mp ha
        refine ⟨_, _, rfl, ?_⟩
        rw [hlen]
        have hj : j < (tPart k s T tid).2.length := (List.getElem?_eq_some_iff.mp hx).1
        have h4 := tStart_mono k s T (show tid + 1 ≤ T by omega)
        have h5 := hpart tid
        have h6 : tStart k s T (tid+1) * k = tStart k s T tid * k + (tPart k s T tid).1 * k := by rw [tStart_succ, Nat.add_mul]
        by_cases htn : Torn k s T tid
        · have h7 := htorn tid ht htn
          have h8 : tStart k s T (tid+1) + 1 ≤ tStart k s T T := by omega
          have h9 := Nat.mul_le_mul_right k h8
          rw [Nat.add_mul] at h9
          omega
        · have h7 : (tPart k s T tid).2.length = (tPart k s T tid).1 * k := Decidable.not_not.mp htn
          have h9 := Nat.mul_le_mul_right k h4
          omega)
      refine ⟨_, h1, ?_, rfl, ?_⟩
      · show c'.length = _
        rw [h2, hlen, Nat.mul_comm]
      · intro x hx
        obtain ⟨i, hi⟩ := List.getElem?_of_mem hx
        rcases h3 i x hi with h | ⟨h, _⟩
        · obtain ⟨tid, ht, j, y, hy, he⟩ := (mem_sched hs).mp h
          injection he with _ he
          rw [he]; exact Nat.mod_lt _ (Nat.two_pow_pos _)
        · exfalso
          have hlt : i < tStart k s T T * k := by
            rw [← hlen jc, ← h2]
            exact (List.getElem?_eq_some_iff.mp hi).1
          obtain ⟨tid, ht, j, y, hy, rfl, _⟩ := covered hk s T T i hlt
          exact h _ ((mem_sched hs).mpr ⟨tid, ht, j, y, hy, rfl⟩)
    · refine R.All.pure ?_
      simp only [hm]
      exact ⟨trivial, trivial, hmem.1, hmem.2⟩
  · intro htorn
    refine R.All.bind (R.All.lift hplan rfl) (fun p hp => ?_)
    subst hp
    refine R.All.bind R.All.any (fun jc _ => R.All.bind R.All.any (fun jw _ => ?_))
    refine R.All.bind (P := fun mem => mem = ⟨((List.range T).map (fun tid => (tPart k s T tid).2.map (· % 2 ^ lw))).flatten, []⟩)
      (R.All.par (fun sched hs => ⟨_, ?_, rfl⟩)) (fun mem hmem => ?_)
    · simp only [hm, hkm] at hs ⊢
      obtain ⟨f1, f2⟩ := flatten_parts (W := Unit) k lw s T T htorn
      rw [interleave_eq_flatten stepT hs, f1]
      · have := run_coordActs (W := Unit) (((List.range T).map (fun tid => (tPart k s T tid).2.map (· % 2 ^ lw))).flatten) [] (alloc jc (k * tStart k s T T)) [] (by rw [f2, hlen]; exact Nat.le_refl _)
        rw [List.nil_append, List.nil_append, List.drop_of_length_le (by rw [f2, hlen]; exact Nat.le_refl _), List.append_nil] at this
        exact this
      · intro i j hij li lj hi hj a ha b hb
        obtain ⟨hi', rfl⟩ := List.getElem?_eq_some_iff.mp hi
        obtain ⟨hj', rfl⟩ := List.getElem?_eq_some_iff.mp hj
        simp only [List.length_map, List.length_range] at hi' hj'
        simp only [List.getElem_map, List.getElem_range] at ha hb
        obtain ⟨a1, a2, ha', rfl⟩ := mem_coordActs.mp ha
        obtain ⟨b1, b2, hb', rfl⟩ := mem_coordActs.mp hb
        have ha1 := (List.getElem?_eq_some_iff.mp ha').1
        simp only [List.length_map] at ha1
        have h7 : (tPart k s T i).2.length = (tPart k s T i).1 * k := Decidable.not_not.mp (htorn i hi')
        have h6 : tStart k s T (i+1) * k = tStart k s T i * k + (tPart k s T i).1 * k := by rw [tStart_succ, Nat.add_mul]
        have h9 := Nat.mul_le_mul_right k (tStart_mono k s T (show i + 1 ≤ j by omega))
        refine tact_commute _ _ (fun x hx y hy => ?_) (fun x hx => by cases hx)
        simp only [TAct.cpos, List.mem_singleton] at hx hy
        omega
    · subst hmem
      refine R.All.pure ?_
      rw [hm]

end Pigo
