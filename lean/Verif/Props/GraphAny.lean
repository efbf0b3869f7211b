import Verif.Lemmas.GraphAny5
import Verif.Props.GraphFile2
import Verif.Props.EdgeList2

/-!
# Arbitrary text in a `.graph` file

C83: what loading a CSR from a `.graph` file does with arbitrary bytes.
-/

namespace Pigo

variable {W : Type}

/-- A CSR whose arrays have the sizes its fields say, and whose offsets all lie in the array of endpoints. (Nothing is said about
the order of the offsets, nor that the endpoints are vertices.) -/
structure GraphSound (c : Csr W) : Prop where
  endpoints : c.endpoints.length = c.m
  offsets : c.offsets.length = c.nrows + 1
  rows : c.n ≤ c.nrows
  inside : ∀ v, v ≤ c.nrows → Spec.off c v ≤ c.m

/-- **C83** Any file at all, as long as its last byte is not a comment sign (and its size is not a multiple of the page size): no
execution leaves the mapping or the arrays or fails to end: it throws, or returns a CSR with arrays of the right size and all
offsets inside. -/
theorem C83_any_text (page : Nat) (hp : 0 < page) (file : List Byte) (hd : ¬ page ∣ file.length)
    (hend : ∀ c, file.getLast? = some c → isCom c = false) (lw ow T : Nat) (hT : 0 < T)
    (hlw : T * file.length + 2 < 2 ^ lw) (how : T * file.length < 2 ^ ow) (out : M (Csr W))
    (h : LoadGraph (mapFile page file) lw ow T out) : out = .error .error ∨ ∃ c, out = .ok c ∧ GraphSound c := by
  have hpad := (mapFile_pad (file := file) hp).mpr hd
  obtain ⟨p, h1, h2⟩ := graphPlan_any (μ := mapFile page file) hT hpad hend (lw := lw) (ow := ow) hlw how
  obtain ⟨o, ep, h3, h4, h5, h6⟩ := readGraph_any (μ := mapFile page file) h1 h2 hlw out h
  subst h3
  unfold graphFinish
  split
  · exact .inl rfl
  · split
    · exact .inl rfl
    · rename_i hn
      exact .inr ⟨_, rfl, h5, h4, by simp only; omega, fun v hv => h6 v hv⟩

/-- What the outcome is on a text without glued comments that ends with a newline. -/
theorem loadGraph_text {μ : Mapping} {T : Nat} (hT : 0 < T) (hpad : 0 < μ.pad) (hend : EndsNC μ.bytes) (hgl : NoGlue μ.bytes) {lw ow : Nat}
    (hlw : T * μ.bytes.length + 2 < 2 ^ lw) (how : T * μ.bytes.length < 2 ^ ow) (hnl : μ.bytes.getLast? = some nl) :
    ∃ rn rm base rows, (base = 0 ∨ base = 1) ∧ (∀ u ∈ rows.flatten, u < 2 ^ lw) ∧
      ∀ out : M (Csr W), LoadGraph μ lw ow T out ↔ out = graphResult lw ow rn rm base rows := by
  obtain ⟨rn, rm, base, rows, tail, h1, h2, h3, h4, h5⟩ := loadGraph_toks (W := W) hT hpad hend hgl hlw how
  have ht := h2 hnl
  subst ht
  have e1 : (rows.map (fun r => r.map (rval lw))).flatten = rows.flatten.map (rval lw) := (List.map_flatten ..).symm
  have e2 : (rows.map (fun r => r.map (rval lw))).map List.length = rows.map List.length := by
    rw [List.map_map]; exact List.map_congr_left (fun r _ => by simp)
  refine ⟨rn, rm, base, rows.map (fun r => r.map (rval lw)), h1, ?_, fun out => ?_⟩
  · rw [e1]
    intro u hu
    obtain ⟨r, _, rfl⟩ := List.mem_map.mp hu
    exact Nat.mod_lt _ (Nat.two_pow_pos _)
  · have e3 : graphOffsets base rows [] = List.replicate (base + 1) 0 ++ prefixSums 0 (rows.map List.length) := by
      unfold graphOffsets
      split
      · rename_i h0
        subst h0
        rw [List.replicate_succ']; simp [prefixSums]
      · rfl
    have key : graphFinish (W := W) lw ow { readN := rn, readM := rm, n := base + rows.length, m := (rows.flatten ++ []).length, base := base
                                            threads := [], colMax := (rows.flatten.map (rval lw)).foldl max 0 }
          (graphOffsets base rows []) (rows.flatten.map (rval lw) ++ []) =
        graphResult lw ow rn rm base (rows.map (fun r => r.map (rval lw))) := by
      unfold graphFinish graphResult graphCsr
      rw [e3, e1, e2]
      simp only [List.append_nil, List.length_map]
      rfl
    rw [h5]
    constructor
    · rintro ⟨junk, hj, rfl⟩
      have : junk = [] := List.length_eq_zero_iff.mp hj
      subst this
      exact key
    · rintro rfl
      exact ⟨[], rfl, key.symm⟩

/-- **C83** If moreover no comment sign directly follows a digit and the file ends with a newline, then for a given number of
threads there is one outcome only: an exception, or a CSR with valid arrays over its `nrows()` rows, whose endpoints are
below `ncols()` unless the largest value of the label type is among them. -/
theorem C83_same_result (page : Nat) (hp : 0 < page) (file : List Byte) (hd : ¬ page ∣ file.length)
    (hnl : file.getLast? = some nl)
    (hgl : ∀ p c d q, file = p ++ c :: d :: q → isDigit c = true → isCom d = false) (lw ow T : Nat) (hT : 0 < T)
    (hlw : T * file.length + 2 < 2 ^ lw) (how : T * file.length < 2 ^ ow) :
    (∀ out : M (Csr W), LoadGraph (mapFile page file) lw ow T out → out = .error .error) ∨
    ∃ c : Csr W, (∀ out, LoadGraph (mapFile page file) lw ow T out → out = .ok c) ∧ Spec.ValidCsr { c with n := c.nrows } false ∧
      c.n ≤ c.nrows ∧ (∀ u ∈ c.endpoints, u < 2 ^ lw) ∧ ((∀ u ∈ c.endpoints, u + 1 < 2 ^ lw) → ∀ u ∈ c.endpoints, u < c.ncols) := by
  have hpad := (mapFile_pad (file := file) hp).mpr hd
  have hend : EndsNC file := by
    intro c hc
    rw [hnl] at hc
    injection hc with hc
    subst hc
    decide
  obtain ⟨rn, rm, base, rows, h1, h2, h3⟩ := loadGraph_text (W := W) (μ := mapFile page file) hT hpad hend hgl (lw := lw) (ow := ow) hlw how hnl
  by_cases hc : rows.flatten.length ≠ twice ow rm ∧ rows.flatten.length ≠ rm
  · left
    intro out h
    rw [(h3 out).mp h, graphResult, if_pos hc]
  by_cases hn : base + rows.length < rn
  · left
    intro out h
    rw [(h3 out).mp h, graphResult, if_neg hc, if_pos hn]
  right
  refine ⟨graphCsr lw rn base rows, fun out h => by rw [(h3 out).mp h, graphResult, if_neg hc, if_neg hn], ?_, ?_, h2, ?_⟩
  · exact graphCsr_valid lw (base + rows.length) base rows rfl
  · show rn ≤ base + rows.length
    omega
  · intro ht u hu
    have hu' : u ∈ rows.flatten := hu
    have hu1 := ht u hu
    show u < (Spec.maxOf rows.flatten + 1) % 2 ^ lw
    have hm : Spec.maxOf rows.flatten < 2 ^ lw - 1 := maxOf_lt (by omega) (fun a ha => by have := ht a ha; omega)
    rw [Nat.mod_eq_of_lt (by omega)]
    have := le_maxOf hu'
    omega

/-! ### Examples -/

/-- A messy file: text in place of numbers, comments, signs, blank lines. -/
def exMessy : List Byte := str "3 nodes, 4 edges # declared\n\n1 2 x% 7 8\n\n-0 2;;\n% \n"

example : ¬ 4096 ∣ exMessy.length ∧ (∀ c, exMessy.getLast? = some c → isCom c = false) ∧ 2 * exMessy.length + 2 < 2 ^ 32 := by
  refine ⟨by decide, ?_, by decide⟩
  intro c hc
  have : exMessy.getLast? = some 10 := by decide
  rw [this] at hc
  injection hc with hc
  subst hc
  decide

/-- No digit directly followed by a comment sign, as a computation. -/
def noGlueB : List Byte → Bool
  | c :: d :: q => !(isDigit c && isCom d) && noGlueB (d :: q)
  | _ => true

theorem noGlueB_ok : ∀ (s : List Byte), noGlueB s = true → NoGlue s
  | [], _ => by intro p c d q h; simp at h
  | [a], _ => by
    intro p c d q h
    have := congrArg List.length h
    simp at this; omega
  | a :: b :: s, h => by
    intro p c d q hs hc
    rw [noGlueB, Bool.and_eq_true] at h
    cases p with
    | nil =>
      simp only [List.nil_append] at hs
      injection hs with h1 h2
      injection h2 with h2 h3
      subst h1 h2
      simpa [hc] using h.1
    | cons x p =>
      injection hs with h1 h2
      exact noGlueB_ok (b :: s) h.2 p c d q h2 hc

example : exMessy.getLast? = some nl ∧ NoGlue exMessy := ⟨by decide, noGlueB_ok _ (by decide)⟩

/-! ### A comment sign after a digit: the two passes disagree -/

/-- Running the stores of a plan in any order allowed is an execution. -/
theorem loadGraph_sched {μ : Mapping} {lw ow T : Nat} {p : GPlan} (hp : graphPlan μ lw ow T (fileReader μ) = .ok p) {jo je : Nat → Nat}
    {o o' e' : List Nat} (ho : graphInit p.base p.n p.m (alloc jo (plusOne lw p.n)) = .ok o) {sched : List GAct}
    (hs : Interleave p.threads sched)
    (hr : runActs (sumStep storeAct storeAct) sched (o, alloc je p.m) = .ok (o', e')) :
    LoadGraph μ lw ow T (graphFinish (W := W) lw ow p o' e') := by
  refine ⟨_, rfl, ?_⟩
  rw [hp]
  refine ⟨_, ⟨jo, trivial, rfl⟩, _, ⟨je, trivial, rfl⟩, _, rfl, ?_⟩
  rw [ho]
  refine ⟨_, ⟨_, hs, rfl⟩, ?_⟩
  rw [hr]
  rfl

theorem interleave_pause {α : Type} (a b c : List α) : Interleave [a ++ c, b] (a ++ (b ++ c)) := by
  induction a with
  | nil => exact interleave_swap c b
  | cons x a ih => exact .step (i := 0) (l := a ++ c) rfl (by simpa using ih)

/-- Six vertices with one neighbour each; two lines end in a comment sign directly after the number. -/
def exGlue : Mapping := ⟨str "6 6\n1#\n2#\n3\n0\n4\n5\n", 10⟩

def exGluePlan : GPlan :=
  { readN := 6, readM := 6, n := 6, m := 6, base := 0
    threads := [[.inr (0, 1), .inl (1, 1), .inl (2, 1), .inr (1, 2), .inl (3, 2), .inl (4, 2), .inr (2, 3), .inl (5, 3)],
      [.inr (3, 0), .inl (4, 4), .inr (4, 4), .inl (5, 5), .inr (5, 5), .inl (6, 6)]]
    colMax := 5 }

theorem exGlue_plan : graphPlan exGlue 32 64 2 (fileReader exGlue) = .ok exGluePlan := by decide

/-- **C83 is violated** when a comment sign directly follows a number: on this file two executions with two threads return
different CSRs without an error, and the offsets of the second one decrease. -/
theorem C83_race_violated :
    ∃ c d : Csr Unit, LoadGraph exGlue 32 64 2 (.ok c) ∧ LoadGraph exGlue 32 64 2 (.ok d) ∧ c.offsets = [0, 1, 1, 2, 4, 5, 6] ∧
      d.offsets = [0, 1, 1, 2, 4, 3, 6] := by
  have h1 := loadGraph_sched (W := Unit) exGlue_plan (jo := fun _ => 0) (je := fun _ => 0) (o := [0, 0, 0, 0, 0, 0, 6])
    (o' := [0, 1, 1, 2, 4, 5, 6]) (e' := [1, 2, 3, 0, 4, 5]) (by decide) (interleave_flatten _) (by decide)
  have h2 := loadGraph_sched (W := Unit) exGlue_plan (jo := fun _ => 0) (je := fun _ => 0) (o := [0, 0, 0, 0, 0, 0, 6])
    (o' := [0, 1, 1, 2, 4, 3, 6]) (e' := [1, 2, 3, 0, 4, 5]) (by decide)
    (interleave_pause (α := GAct) [.inr (0, 1), .inl (1, 1), .inl (2, 1), .inr (1, 2), .inl (3, 2), .inl (4, 2), .inr (2, 3)]
      [.inr (3, 0), .inl (4, 4), .inr (4, 4), .inl (5, 5), .inr (5, 5), .inl (6, 6)] [.inl (5, 3)]) (by decide)
  exact ⟨_, _, h1, h2, rfl, rfl⟩

/-! ### Files whose size is a multiple of the page size -/

theorem OobOnly.readDigitsN (μ : Mapping) (lw : Nat) (n v : Nat) (r : Reader) : OobOnly (readDigitsN μ (wrapU lw) n v r) := by
  induction n generalizing v r with
  | zero => exact .ok _
  | succ n ih =>
    unfold Pigo.readDigitsN
    split
    · refine .bind (.get _ _) fun b => ?_
      split
      · refine .bind (.ok _) fun v => ih _ _
      · exact .ok _
    · exact .ok _

theorem OobOnly.readInt (μ : Mapping) (lw : Nat) (r : Reader) : OobOnly (readInt μ (wrapU lw) r) := by
  unfold Pigo.readInt
  exact .bind (.scan ..) fun r => .readDigitsN ..

theorem OobOnly.moveToNextInt (μ : Mapping) (r : Reader) : OobOnly (moveToNextInt μ r) := by
  unfold Pigo.moveToNextInt moveToNonInt
  exact .bind (.scan ..) fun r => .moveToFirstInt ..

theorem OobOnly.graphHeader (μ : Mapping) (lw ow : Nat) (r : Reader) : OobOnly (graphHeader μ lw ow r) := by
  unfold Pigo.graphHeader
  refine .bind (.moveToFirstInt ..) fun r => .bind (.readInt ..) fun x => ?_
  refine .bind (.moveToNextInt ..) fun r => .bind (.readInt ..) fun x => ?_
  refine .bind ?_ fun r => .bind (.moveToNextInt ..) fun r => .ok _
  exact .scan ..

theorem OobOnly.graphRegion (μ : Mapping) (r : Reader) (T tid : Nat) : OobOnly (graphRegion μ r T tid) := by
  unfold Pigo.graphRegion
  refine .bind (.moveToNextInt ..) fun re => .bind ?_ fun rs => .ok _
  unfold graphStart
  split
  · exact .moveToNextInt ..
  · exact .moveToFirstInt ..

/-- If the result is a reader, its end is `e` and its cursor is at most `e`. -/
structure Keeps (e : Nat) {α : Type} (g : α → Reader) (m : M α) : Prop where
  keeps : ∀ a, m = .ok a → (g a).d ≤ e ∧ (g a).e = e

theorem Keeps.ok {e : Nat} {α : Type} {g : α → Reader} {a : α} (h : (g a).d ≤ e ∧ (g a).e = e) : Keeps e g (.ok a : M α) :=
  ⟨by intro b hb; cases hb; exact h⟩

theorem Keeps.bind {e : Nat} {α β : Type} {f : α → Reader} {g : β → Reader} {m : M α} {k : α → M β} (h : Keeps e f m)
    (hk : ∀ a, (f a).d ≤ e ∧ (f a).e = e → Keeps e g (k a)) : Keeps e g (m >>= k) := by
  cases m with
  | error f => exact ⟨fun b hb => by simp only [error_bind] at hb; cases hb⟩
  | ok a => exact hk a (h.keeps a rfl)

theorem Keeps.any {e : Nat} {α β : Type} {g : β → Reader} {m : M α} {k : α → M β} (hk : ∀ a, Keeps e g (k a)) : Keeps e g (m >>= k) := by
  cases m with
  | error f => exact ⟨fun b hb => by simp only [error_bind] at hb; cases hb⟩
  | ok a => exact hk a

theorem adv_keeps {e : Nat} {r : Reader} (h : r.d ≤ e ∧ r.e = e) (hg : r.d < r.e) : r.adv.d ≤ e ∧ r.adv.e = e := by
  unfold Reader.adv
  simp only
  omega

theorem Keeps.scan (μ : Mapping) {e : Nat} (P : Byte → Bool) {r : Reader} (h : r.d ≤ e ∧ r.e = e) : Keeps e id (scan μ P r) := by
  unfold Pigo.scan
  generalize r.e - r.d = n
  induction n generalizing r with
  | zero => exact .ok h
  | succ n ih =>
    unfold scanN
    split
    · refine .any fun b => ?_
      split
      · exact ih (adv_keeps h (by assumption))
      · exact .ok h
    · exact .ok h

theorem Keeps.skipLineN (μ : Mapping) {e : Nat} (n : Nat) {r : Reader} (h : r.d ≤ e ∧ r.e = e) : Keeps e id (skipLineN μ n r) := by
  induction n generalizing r with
  | zero => exact .ok h
  | succ n ih =>
    unfold Pigo.skipLineN
    split
    · refine .any fun b => ?_
      split
      · exact ih (adv_keeps h (by assumption))
      · exact .ok (adv_keeps h (by assumption))
    · exact .ok h

theorem Keeps.skipCommentsN (μ : Mapping) {e : Nat} (n : Nat) {r : Reader} (h : r.d ≤ e ∧ r.e = e) : Keeps e id (skipCommentsN μ n r) := by
  induction n generalizing r with
  | zero => exact .ok h
  | succ n ih =>
    unfold Pigo.skipCommentsN
    split
    · refine .any fun b => ?_
      split
      · exact .bind (.skipLineN μ _ h) fun r h => ih h
      · exact .ok h
    · exact .ok h

theorem Keeps.skipIfCom (μ : Mapping) {e : Nat} {r : Reader} (h : r.d ≤ e ∧ r.e = e) : Keeps e id (skipIfCom μ r) := by
  unfold Pigo.skipIfCom
  refine .any fun b => ?_
  split
  · exact .skipCommentsN μ _ h
  · exact .ok h

theorem Keeps.firstN (μ : Mapping) {e : Nat} (st : Byte → Bool) (n : Nat) {r : Reader} (h : r.d ≤ e ∧ r.e = e) : Keeps e id (firstN μ st n r) := by
  induction n generalizing r with
  | zero => exact .ok h
  | succ n ih =>
    unfold Pigo.firstN
    split
    · refine .any fun b => ?_
      split
      · exact .ok h
      · exact .bind (.skipIfCom μ (adv_keeps h (by assumption))) fun r h => ih h
    · exact .ok h

theorem Keeps.moveToFirstInt (μ : Mapping) {e : Nat} {r : Reader} (h : r.d ≤ e ∧ r.e = e) : Keeps e id (moveToFirstInt μ r) := by
  unfold Pigo.moveToFirstInt
  exact .bind (.skipIfCom μ h) fun r h => .firstN μ _ _ h

theorem Keeps.moveToNextInt (μ : Mapping) {e : Nat} {r : Reader} (h : r.d ≤ e ∧ r.e = e) : Keeps e id (moveToNextInt μ r) := by
  unfold Pigo.moveToNextInt moveToNonInt
  exact .bind (.scan μ _ h) fun r h => .moveToFirstInt μ h

theorem Keeps.readDigitsN (μ : Mapping) {e : Nat} (w : Nat → M Nat) (n v : Nat) {r : Reader} (h : r.d ≤ e ∧ r.e = e) :
    Keeps e Prod.snd (readDigitsN μ w n v r) := by
  induction n generalizing v r with
  | zero => exact .ok h
  | succ n ih =>
    unfold Pigo.readDigitsN
    split
    · refine .any fun b => ?_
      split
      · exact .any fun v => ih v (adv_keeps h (by assumption))
      · exact .ok h
    · exact .ok h

theorem Keeps.readInt (μ : Mapping) {e : Nat} (w : Nat → M Nat) {r : Reader} (h : r.d ≤ e ∧ r.e = e) : Keeps e Prod.snd (readInt μ w r) := by
  unfold Pigo.readInt
  exact .bind (.scan μ _ h) fun r h => .readDigitsN μ w _ _ h

theorem Keeps.graphHeader (μ : Mapping) {e : Nat} (lw ow : Nat) {r : Reader} (h : r.d ≤ e ∧ r.e = e) :
    Keeps e (fun x => x.2.2) (graphHeader μ lw ow r) := by
  unfold Pigo.graphHeader
  refine .bind (.moveToFirstInt μ h) fun r h => .bind (.readInt μ _ h) fun x h => ?_
  refine .bind (.moveToNextInt μ h) fun r h => .bind (.readInt μ _ h) fun x h => ?_
  refine .bind (f := id) ?_ fun r h => .bind (.moveToNextInt μ h) fun r h => .ok h
  exact .scan μ _ h

theorem graphRegion_end (μ : Mapping) (hpad : μ.pad = 0) (T : Nat) (hT : 0 < T) {r : Reader} (h : r.d ≤ μ.bytes.length ∧ r.e = μ.bytes.length) :
    graphRegion μ r T (T - 1) = .error .oob := by
  unfold graphRegion
  have h1 : r.plus ((T - 1 + 1) * r.size / T) = ⟨μ.bytes.length, μ.bytes.length⟩ := by
    rw [Nat.sub_add_cancel hT, Nat.mul_div_cancel_left _ hT]
    simp only [Reader.plus, Reader.size, h.2]
    split <;> congr 1 <;> omega
  rw [h1]
  have h2 : moveToNextInt μ ⟨μ.bytes.length, μ.bytes.length⟩ = .error .oob := by
    unfold moveToNextInt moveToNonInt moveToFirstInt skipIfCom scan
    simp only [Nat.sub_self, scanN, ok_bind]
    rw [μ.get_oob (by omega)]
    rfl
  rw [h2, error_bind]

/-- **C83 fails** when the file size is a multiple of the page size: every execution on every such file loads the byte after the
mapping. -/
theorem C83_page_multiple_violated (page : Nat) (hp : 0 < page) (file : List Byte) (hd : page ∣ file.length) (lw ow T : Nat) (hT : 0 < T)
    (out : M (Csr W)) (hrun : LoadGraph (mapFile page file) lw ow T out) : out = .error .oob := by
  have hpad : (mapFile page file).pad = 0 := by
    have := mapFile_pad (file := file) hp
    rcases Nat.eq_zero_or_pos (mapFile page file).pad with h | h
    · exact h
    · exact absurd hd (this.mp h)
  refine (loadGraph_fault (μ := mapFile page file) (lw := lw) (ow := ow) (T := T) ?_ out).mp hrun
  unfold graphPlan
  have h1 := OobOnly.graphHeader (mapFile page file) lw ow (fileReader (mapFile page file))
  have h2 := Keeps.graphHeader (mapFile page file) (e := (mapFile page file).bytes.length) lw ow (r := fileReader (mapFile page file))
    ⟨Nat.zero_le _, rfl⟩
  cases hh : graphHeader (mapFile page file) lw ow (fileReader (mapFile page file)) with
  | error f => rw [error_bind, h1.only f hh]
  | ok x =>
    rw [ok_bind]
    simp only
    rw [mapE_oob (graphRegion (mapFile page file) x.2.2 T) (List.range T) (fun a _ => .graphRegion ..) (T - 1) (List.mem_range.mpr (by omega))
      (graphRegion_end _ hpad T hT (h2.keeps x hh)), error_bind]

example : 8 ∣ (str "1 0
# x
").length := by decide

/-! ### Files that end with a comment sign -/

/-- The last byte is a comment sign. -/
def EndsCom (s : List Byte) : Prop := ∃ c, s.getLast? = some c ∧ isCom c = true

theorem EndsCom.suffix {s t : List Byte} (h : EndsCom s) (ht : t <:+ s) (hne : t ≠ []) : EndsCom t := by
  obtain ⟨c, h1, h2⟩ := h
  exact ⟨c, getLast_suffix ht hne h1, h2⟩

theorem EndsCom.tail {c : Byte} {u : List Byte} (h : EndsCom (c :: u)) (hc : isCom c = false) : EndsCom u := by
  refine h.suffix (List.suffix_cons _ _) ?_
  rintro rfl
  obtain ⟨d, h1, h2⟩ := h
  have : c = d := by simpa using h1
  subst this
  rw [hc] at h2; cases h2

theorem restL_com : ∀ (s : List Byte), EndsCom s → restL s ≠ []
  | [], ⟨c, h, _⟩ => by simp at h
  | c :: u, h => by
    rw [restL]
    cases hc : isCom c with
    | true =>
      intro h0
      have := backL_length (u := u) hc
      simp only [if_pos] at h0
      rw [h0] at this; simp at this
    | false =>
      simp only [Bool.false_eq_true, if_false]
      split
      · simp
      · exact restL_com u (h.tail hc)

theorem nextL_com {s : List Byte} (h : EndsCom s) : nextL s ≠ [] := by
  have hsu := dropWhile_suffix' isDigit s
  have hne : s.dropWhile isDigit ≠ [] := by
    intro h0
    obtain ⟨c, h1, h2⟩ := h
    have h3 : ∀ x ∈ s, isDigit x = true := by
      intro x hx
      rw [← List.takeWhile_append_dropWhile (p := isDigit) (l := s), h0, List.append_nil] at hx
      exact mem_takeWhile' hx
    have := h3 _ (List.mem_of_getLast? h1)
    rw [isCom_not_digit h2] at this; cases this
  have hc := h.suffix hsu hne
  unfold nextL
  split
  · contradiction
  · rename_i x w hs
    rw [hs] at hc
    split
    · split
      · simp
      · rename_i hx _
        have hx : x = nl := by simpa using hx
        subst hx
        exact restL_com _ (hc.tail (by decide))
    · exact restL_com _ hc

/-- The first pass neither faults nor leaves the file; at most it does not end. -/
theorem count_total {μ : Mapping} {e : Nat} (ht : TailOk μ e) : ∀ (k : Nat) (s : List Byte) (c : GCount), View μ e s →
    (∃ x, whileGood (graphCount μ) k c (rd e s) = .ok x) ∨ whileGood (graphCount μ) k c (rd e s) = .error .fuel := by
  intro k
  induction k with
  | zero =>
    intro s c v
    rw [whileGood]
    split
    · exact .inr rfl
    · exact .inl ⟨_, rfl⟩
  | succ k ih =>
    intro s c v
    cases s with
    | nil => exact .inl ⟨_, by rw [whileGood, good_rd v, if_neg (by simp)]⟩
    | cons x u =>
      obtain ⟨z, hz⟩ := atZero_any ht v (by simp)
      rw [whileGood, good_rd v, if_pos (by simp), graphCount, atNlOrEol_eq v, ok_bind, hz, ok_bind, nextIntOrNl_any ht v, ok_bind]
      simp only [ok_bind]
      exact ih _ _ (v.of_suffix (nextL_suffix _))

/-- **C83** The first pass over a text that ends with a comment sign never ends: no number of iterations is enough. -/
theorem C83_hang_any_bound {μ : Mapping} {e : Nat} (ht : TailOk μ e) : ∀ (k : Nat) (s : List Byte) (c : GCount), View μ e s → EndsCom s →
    whileGood (graphCount μ) k c (rd e s) = .error .fuel := by
  intro k
  induction k with
  | zero =>
    intro s c v hc
    rw [whileGood, good_rd v, if_pos]
    cases s with
    | nil => obtain ⟨_, h, _⟩ := hc; simp at h
    | cons x u => rfl
  | succ k ih =>
    intro s c v hc
    cases s with
    | nil => obtain ⟨_, h, _⟩ := hc; simp at h
    | cons x u =>
      obtain ⟨z, hz⟩ := atZero_any ht v (by simp)
      rw [whileGood, good_rd v, if_pos (by simp), graphCount, atNlOrEol_eq v, ok_bind, hz, ok_bind, nextIntOrNl_any ht v, ok_bind]
      simp only [ok_bind]
      exact ih _ _ (v.of_suffix (nextL_suffix _)) (hc.suffix (nextL_suffix _) (nextL_com hc))

theorem mapE_one {α β : Type} (f : α → M β) (g : Fault) (l : List α) (h : ∀ a ∈ l, (∃ b, f a = .ok b) ∨ f a = .error g) (a : α) (ha : a ∈ l)
    (hf : f a = .error g) : mapE f l = .error g := by
  induction l with
  | nil => simp at ha
  | cons b l ih =>
    unfold mapE
    rcases h b (List.mem_cons_self ..) with ⟨v, hb⟩ | hb
    · rcases List.mem_cons.mp ha with rfl | ha
      · rw [hf] at hb; cases hb
      · rw [hb, ok_bind, ih (fun x hx => h x (List.mem_cons_of_mem _ hx)) ha, error_bind]
    · rw [hb, error_bind]

/-- What the part of the file of a thread can be. -/
theorem region_shape {μ : Mapping} {e : Nat} {S X : List Byte} {s : List Byte} (v : View μ e s) (ht : TailOk μ e) (hS : S <:+ s) (hX : X <:+ s)
    (hXd : ∀ c t, X = c :: t → isDigit c = true) :
    ((rd e S).smallerEnd (rd e X)).e ≤ ((rd e S).smallerEnd (rd e X)).d ∨
      ∃ e' G, (rd e S).smallerEnd (rd e X) = rd e' G ∧ View μ e' G ∧ TailOk μ e' := by
  have vS := v.of_suffix hS
  have vX := v.of_suffix hX
  cases hx : X with
  | nil =>
    have h1 : (rd e S).smallerEnd (rd e []) = rd e S := by
      unfold Reader.smallerEnd rd
      simp
    exact .inr ⟨e, S, h1, vS, ht⟩
  | cons c t =>
    rw [hx] at vX hX
    by_cases hlen : (c :: t).length < S.length
    · obtain ⟨G, hG⟩ := List.suffix_of_suffix_length_le hX hS (by omega)
      have hv : View μ e (G ++ c :: t) := by rw [hG]; exact vS
      have h1 := smallerEnd_rd hv
      rw [hG] at h1
      refine .inr ⟨_, G, h1, hv.shrink, c, vX.get_cons, isDigit_not_com (hXd c t hx)⟩
    · left
      have := vX.length_le
      unfold Reader.smallerEnd
      split
      · simp only [rd]; omega
      · rename_i h
        simp only [rd, List.length_cons] at h this hlen ⊢
        omega

theorem countAll_total {μ : Mapping} {R : Reader} (h : R.e ≤ R.d ∨ ∃ e' G, R = rd e' G ∧ View μ e' G ∧ TailOk μ e') :
    (∃ x, graphCountAll μ R = .ok x) ∨ graphCountAll μ R = .error .fuel := by
  rcases h with h | ⟨e', G, rfl, v, ht⟩
  · left
    have hg : R.good = false := by simp [Reader.good]; omega
    refine ⟨⟨0, 0, false⟩, ?_⟩
    rw [graphCountAll, Nat.sub_eq_zero_of_le h, whileGood, hg]; rfl
  · unfold graphCountAll
    rcases count_total ht ((rd e' G).e - (rd e' G).d) G ⟨0, 0, false⟩ v with ⟨x, hx⟩ | hx
    · rw [hx]; exact .inl ⟨x.1, rfl⟩
    · rw [hx]; exact .inr rfl

/-- The last thread whose part of the file is not empty. -/
theorem last_start (s : List Byte) : ∀ (k : Nat) {T : Nat}, startAny s T 0 ≠ [] → startAny s T k = [] →
    ∃ t, t < k ∧ startAny s T t ≠ [] ∧ startAny s T (t + 1) = []
  | 0, _, h, h0 => absurd h0 h
  | k+1, T, h, h0 => by
    by_cases hk : startAny s T k = []
    · obtain ⟨t, h1, h2⟩ := last_start s k h hk
      exact ⟨t, by omega, h2⟩
    · exact ⟨k, by omega, hk, h0⟩

theorem graphPlan_com {μ : Mapping} {T : Nat} (hT : 0 < T) (hpad : 0 < μ.pad) {lw ow rn rm : Nat} {s : List Byte}
    (hh : graphHeader μ lw ow (fileReader μ) = .ok (rn, rm, rd μ.bytes.length s)) (hs : s <:+ μ.bytes) (hd : firstIntL s ≠ []) (hc : EndsCom s) :
    graphPlan μ lw ow T (fileReader μ) = .error .fuel := by
  have v : View μ μ.bytes.length s := (View.full μ).of_suffix hs
  have ht : TailOk μ μ.bytes.length := ⟨0, Mapping.get_pad _ (Nat.le_refl _) (by omega), rfl⟩
  have hreg : mapE (graphRegion μ (rd μ.bytes.length s) T) (List.range T) = .ok ((List.range T).map (fun t =>
      (rd μ.bytes.length (startAny s T t)).smallerEnd (rd μ.bytes.length (startAny s T (t + 1))))) :=
    mapE_ok _ _ _ (fun t ht' => graphRegion_start v ht.readable (List.mem_range.mp ht'))
  obtain ⟨t, h1, h2, h3⟩ := last_start s T (show startAny s T 0 ≠ [] from hd) (startAny_last s hT)
  unfold graphPlan
  rw [hh, ok_bind]
  simp only
  rw [hreg, ok_bind, mapE_one (graphCountAll μ) .fuel _ ?_ _ (List.mem_map.mpr ⟨t, List.mem_range.mpr h1, rfl⟩) ?_, error_bind]
  · intro R hR
    obtain ⟨i, _, rfl⟩ := List.mem_map.mp hR
    exact countAll_total (region_shape v ht (startAny_suffix s T i) (startAny_suffix s T (i + 1)) (startAny_digit s T (i + 1)))
  · rw [h3, show (rd μ.bytes.length (startAny s T t)).smallerEnd (rd μ.bytes.length []) = rd μ.bytes.length (startAny s T t) from by
      unfold Reader.smallerEnd rd; simp]
    unfold graphCountAll
    rw [C83_hang_any_bound ht _ _ _ (v.of_suffix (startAny_suffix s T t)) (hc.suffix (startAny_suffix s T t) h2)]
    rfl

/-- The header `a b` followed by a line that starts with a digit. -/
theorem graphHeader_plain {μ : Mapping} (hpad : 0 < μ.pad) (lw ow : Nat) {a b body : List Byte} (ha : a ≠ []) (hb : b ≠ [])
    (had : ∀ c ∈ a, isDigit c = true) (hbd : ∀ c ∈ b, isDigit c = true) (hf : μ.bytes = a ++ 32 :: (b ++ nl :: body))
    {c : Byte} {u : List Byte} (hbody : body = c :: u) (hc : isDigit c = true) :
    ∃ rn rm, graphHeader μ lw ow (fileReader μ) = .ok (rn, rm, rd μ.bytes.length body) := by
  have hr : Readable μ μ.bytes.length := by unfold Readable; omega
  have hfr : fileReader μ = rd μ.bytes.length (a ++ 32 :: (b ++ nl :: body)) := by rw [← hf]; simp [fileReader, rd]
  have vf : View μ μ.bytes.length (a ++ 32 :: (b ++ nl :: body)) := by rw [← hf]; exact View.full μ
  have first : ∀ {x : Byte} {w : List Byte}, isDigit x = true → firstIntL (x :: w) = x :: w := by
    intro x w hx
    simp [firstIntL, toStop, isDigit_not_com hx, hx]
  have firstApp : ∀ {x w : List Byte}, x ≠ [] → (∀ c ∈ x, isDigit c = true) → firstIntL (x ++ w) = x ++ w := by
    intro x w hx hd
    cases x with
    | nil => exact absurd rfl hx
    | cons y x => exact first (hd y (List.mem_cons_self ..))
  have toD : ∀ {x w : List Byte}, x ≠ [] → (∀ c ∈ x, isDigit c = true) → toDigitL (x ++ w) = x ++ w := by
    intro x w hx hd
    cases x with
    | nil => exact absurd rfl hx
    | cons y x => simp [toDigitL, hd y (List.mem_cons_self ..)]
  have dropD : ∀ {x : List Byte} {y : Byte} {w : List Byte}, (∀ c ∈ x, isDigit c = true) → isDigit y = false →
      (x ++ y :: w).dropWhile isDigit = y :: w := by
    intro x y w hd hy
    rw [List.dropWhile_append_of_pos hd, List.dropWhile_cons, if_neg (by simp [hy])]
  have skip : ∀ {y : Byte} {w : List Byte}, isDigit y = false → isCom y = false → nextIntL (y :: w) = firstIntL w := by
    intro y w hy hyc
    simp [nextIntL, firstIntL, toStop, hy, hyc]
  have v2 : View μ μ.bytes.length (32 :: (b ++ nl :: body)) := vf.of_suffix ⟨a, rfl⟩
  have v3 : View μ μ.bytes.length (b ++ nl :: body) := v2.of_suffix (List.suffix_cons _ _)
  have v4 : View μ μ.bytes.length (nl :: body) := v3.of_suffix ⟨b, rfl⟩
  refine ⟨decVal ((a ++ 32 :: (b ++ nl :: body)).takeWhile isDigit) % 2 ^ lw, decVal ((b ++ nl :: body).takeWhile isDigit) % 2 ^ ow, ?_⟩
  rw [graphHeader, hfr, moveToFirstInt_eq vf hr, ok_bind, firstApp ha had, readInt_wrapU lw vf, ok_bind]
  simp only
  rw [toD ha had, dropD had (by decide), moveToNextInt_eq v2 hr, ok_bind, skip (by decide) (by decide), firstApp hb hbd,
    readInt_wrapU ow v3, ok_bind]
  simp only
  rw [toD hb hbd, dropD hbd (by decide), moveToEol_eq v4, ok_bind, show eolL (nl :: body) = nl :: body from by simp [eolL],
    moveToNextInt_eq v4 hr, ok_bind, skip (by decide) (by decide), hbody, first hc]

/-- **C83 fails** when the last byte of the file is a comment sign: with a header line `a b` and a next line that starts with a
digit, loading does not end, for any number of threads and whatever the rest of the file is.  The model, which counts
iterations, reports `Fault.fuel` in every execution; `C83_hang_any_bound` shows that no number of iterations suffices. -/
theorem C83_comment_end_violated (page : Nat) (hp : 0 < page) (file a b body : List Byte) (hd : ¬ page ∣ file.length)
    (hf : file = a ++ 32 :: (b ++ nl :: body)) (ha : a ≠ [] ∧ ∀ c ∈ a, isDigit c = true) (hb : b ≠ [] ∧ ∀ c ∈ b, isDigit c = true)
    (hfirst : ∃ c u, body = c :: u ∧ isDigit c = true) (hlast : ∃ c, body.getLast? = some c ∧ isCom c = true)
    (lw ow T : Nat) (hT : 0 < T) (out : M (Csr W)) (h : LoadGraph (mapFile page file) lw ow T out) : out = .error .fuel := by
  have hpad := (mapFile_pad (file := file) hp).mpr hd
  obtain ⟨c, u, h1, h2⟩ := hfirst
  obtain ⟨rn, rm, h3⟩ := graphHeader_plain (μ := mapFile page file) hpad lw ow ha.1 hb.1 ha.2 hb.2 hf h1 h2
  refine (loadGraph_fault (graphPlan_com hT hpad h3 ?_ ?_ hlast) out).mp h
  · show body <:+ file
    rw [hf]
    exact ⟨a ++ 32 :: (b ++ [nl]), by simp⟩
  · rw [h1]
    simp [firstIntL, toStop, isDigit_not_com h2, h2]

/-- Such a file: `2 1`, two rows, and a comment sign without a text. -/
example : str "2 1\n1 # x\n0 %" = [50] ++ 32 :: ([49] ++ nl :: str "1 # x\n0 %") ∧ ¬ 4096 ∣ (str "2 1\n1 # x\n0 %").length ∧
    (str "1 # x\n0 %").getLast? = some 37 ∧ isCom 37 = true := by decide

end Pigo
