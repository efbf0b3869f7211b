import Verif.Model.Write
import Verif.Spec.Write
import Verif.Lemmas.Ascii
import Verif.Lemmas.BinaryFiles

/-!
# Lemmas about the text writers
-/

namespace Pigo

variable {W : Type}

/-- The stores `acts` put the text `t` at position `p` and touch nothing else; each of them stores the final byte or a zero. -/
structure Puts (acts : List (Nat × Byte)) (p : Nat) (t : List Byte) : Prop where
  run : ∀ mem : List Byte, p + t.length ≤ mem.length → runActs storeAct acts mem = .ok (mem.take p ++ t ++ mem.drop (p + t.length))
  inside : ∀ q ∈ acts, p ≤ q.1 ∧ q.1 < p + t.length
  final : ∀ q ∈ acts, t[q.1 - p]? = some q.2 ∨ q.2 = 0

theorem Puts.nil (p : Nat) : Puts [] p [] := ⟨fun mem _ => by simp [runActs], by simp, by simp⟩

theorem Puts.perm {acts : List (Nat × Byte)} {p : Nat} {t : List Byte} (h : acts.Perm (blockActs p t)) : Puts acts p t := by
  refine ⟨fun mem hm => run_block h mem hm, fun q hq => ?_, fun q hq => ?_⟩
  · obtain ⟨k, h1, h2⟩ := mem_blockActs.mp (h.mem_iff.mp hq)
    have := (List.getElem?_eq_some_iff.mp h2).1
    omega
  · obtain ⟨k, h1, h2⟩ := mem_blockActs.mp (h.mem_iff.mp hq)
    left
    rw [h1, Nat.add_sub_cancel_left, h2]

theorem Puts.append {a b : List (Nat × Byte)} {p : Nat} {t u : List Byte} (ha : Puts a p t) (hb : Puts b (p + t.length) u) :
    Puts (a ++ b) p (t ++ u) := by
  constructor
  · intro mem hm
    rw [List.length_append] at hm
    have hl : (mem.take p ++ t).length = p + t.length := by rw [List.length_append, List.length_take]; omega
    rw [runActs_append, ha.run mem (by omega), ok_bind, hb.run _ (by simp only [List.length_append, List.length_take, List.length_drop]; omega)]
    congr 1
    rw [List.take_append_of_le_length (by omega), List.take_of_length_le (by omega),
      List.drop_append, hl, List.drop_of_length_le (by omega), List.nil_append, List.drop_drop, List.length_append]
    simp only [List.append_assoc]
    congr 3
    congr 1
    omega
  · intro q hq
    rw [List.length_append]
    rcases List.mem_append.mp hq with h | h
    · have := ha.inside q h; omega
    · have := hb.inside q h; omega
  · intro q hq
    rcases List.mem_append.mp hq with h | h
    · have h1 := ha.inside q h
      rw [List.getElem?_append_left (by omega)]
      exact ha.final q h
    · have h1 := hb.inside q h
      rw [List.getElem?_append_right (by omega), Nat.sub_sub]
      exact hb.final q h

theorem Puts.then {a b : List (Nat × Byte)} {p p' : Nat} {t u : List Byte} (ha : Puts a p t) (hb : Puts b p' u) (hp : p' = p + t.length) :
    Puts (a ++ b) p (t ++ u) := ha.append (hp ▸ hb)

theorem puts_char (p : Nat) (b : Byte) : Puts (putChar p b).1 p [b] := Puts.perm (List.Perm.refl _)

theorem puts_uint (p n : Nat) : Puts (writeAsciiU p n).1 p (Spec.showNat n) :=
  Puts.perm (by rw [(writeAsciiU_acts p n).1]; exact List.reverse_perm _)

/-- A weight writer that writes the text `t` for `w` (possibly storing a zero behind it). -/
structure WText.Ok (wt : WText W) (t : List Byte) (w : W) : Prop where
  size : wt.size w = t.length
  ascii : ∀ fp, ∃ acts, wt.ascii fp w = .ok (acts, fp + t.length) ∧ Puts (acts ++ (putChar (fp + t.length) 10).1) fp (t ++ [10])

theorem wtUint_ok (n : Nat) : wtUint.Ok (Spec.showNat n) n :=
  ⟨writeSizeU_eq n, fun fp => ⟨(writeAsciiU fp n).1, by show Except.ok (writeAsciiU fp n) = _; rw [← (writeAsciiU_acts fp n).2],
    (puts_uint fp n).append (puts_char _ _)⟩⟩

theorem wtInt_ok {w : Nat} {z : Int} (h : z.natAbs < 2 ^ (w - 1)) : (wtInt w).Ok (Spec.showInt z) z := by
  refine ⟨writeSizeS_eq z, fun fp => ?_⟩
  obtain ⟨acts, h1, h2⟩ := writeAsciiS_acts w fp z h
  exact ⟨acts, h1, (Puts.perm h2).append (puts_char _ _)⟩

/-- The terminating zero is overwritten by the newline. -/
theorem wtFloat_ok (txt : W → List Byte) (w : W) : (wtFloat txt).Ok (txt w) w := by
  refine ⟨rfl, fun fp => ⟨_, rfl, ?_⟩⟩
  rw [List.append_assoc]
  refine (Puts.perm (List.Perm.refl _)).append ⟨fun mem hm => ?_, by simp [putChar], by simp [putChar]⟩
  simp only [List.length_cons, List.length_nil] at hm
  show runActs storeAct [(fp + (txt w).length, 0), (fp + (txt w).length, 10)] mem = _
  simp only [runActs, storeAct, store]
  rw [if_pos (by omega), ok_bind, if_pos (by rw [List.length_set]; omega), ok_bind, List.set_set, List.set_eq_take_append_cons_drop, if_pos (by omega)]
  simp

/-! ## Two passes -/

/-- Threads putting consecutive texts. -/
def Chain : Nat → List (List (Nat × Byte)) → List (List Byte) → Prop
  | _, [], [] => True
  | p, a :: as, t :: ts => Puts a p t ∧ Chain (p + t.length) as ts
  | _, _, _ => False

theorem Chain.flat : ∀ {as : List (List (Nat × Byte))} {ts : List (List Byte)} {p : Nat}, Chain p as ts → Puts as.flatten p ts.flatten
  | [], [], p, _ => Puts.nil p
  | a :: as, t :: ts, p, h => by simpa using h.1.append h.2.flat

theorem Chain.low : ∀ {as : List (List (Nat × Byte))} {ts : List (List Byte)} {p : Nat}, Chain p as ts → ∀ a ∈ as, ∀ q ∈ a, p ≤ q.1
  | [], [], p, _ => by simp
  | a :: as, t :: ts, p, h => by
    intro b hb q hq
    rcases List.mem_cons.mp hb with rfl | hb
    · exact (h.1.inside q hq).1
    · have := h.2.low b hb q hq; omega

theorem Chain.ordered : ∀ {as : List (List (Nat × Byte))} {ts : List (List Byte)} {p : Nat}, Chain p as ts →
    as.Pairwise (fun a b => ∀ q ∈ a, ∀ r ∈ b, q.1 < r.1)
  | [], [], p, _ => List.Pairwise.nil
  | a :: as, t :: ts, p, h => by
    refine List.Pairwise.cons (fun b hb q hq r hr => ?_) h.2.ordered
    have h1 := h.2.low b hb r hr
    have h2 := h.1.inside q hq
    omega

theorem store_commute (a b : Nat × Byte) (h : a.1 ≠ b.1) : Commute storeAct a b := by
  intro s
  have key : ∀ (q : Nat × Byte) (l : List Byte), storeAct q l = if q.1 < l.length then .ok (l.set q.1 q.2) else .error .oob := fun _ _ => rfl
  rw [key a s, key b s]
  by_cases h1 : a.1 < s.length <;> by_cases h2 : b.1 < s.length
  · rw [if_pos h1, if_pos h2, ok_bind, ok_bind, key, key, List.length_set, List.length_set, if_pos h1, if_pos h2, List.set_comm _ _ h]
  · rw [if_pos h1, if_neg h2, ok_bind, key, List.length_set, if_neg h2]; rfl
  · rw [if_neg h1, if_pos h2, ok_bind, key, List.length_set, if_neg h1]; rfl
  · rw [if_neg h1, if_neg h2]; rfl

/-- Every interleaving of such threads puts the concatenation. -/
theorem Chain.par {as : List (List (Nat × Byte))} {ts : List (List Byte)} (h : Chain 0 as ts) {mem : List Byte} (hm : ts.flatten.length = mem.length) :
    (R.par storeAct as mem).All (fun m => m = ts.flatten) := by
  refine R.All.par (fun sched hs => ?_)
  rw [interleave_eq_flatten storeAct hs (fun i j hij li lj hi hj a ha b hb => store_commute b a (by
    have hp := List.pairwise_iff_getElem.mp h.ordered
    obtain ⟨hi1, hi2⟩ := List.getElem?_eq_some_iff.mp hi
    obtain ⟨hj1, hj2⟩ := List.getElem?_eq_some_iff.mp hj
    have := hp i j hi1 hj1 hij a (by rw [hi2]; exact ha) b (by rw [hj2]; exact hb)
    omega))]
  refine ⟨_, h.flat.run mem (by omega), ?_⟩
  rw [hm]; simp

variable {size : Nat → M Nat} {ascii : Nat → Nat → M (List (Nat × Byte) × Nat)} {line : Nat → List Byte} {k : Nat}

/-- The two passes agree on the text of iteration `e`. -/
structure LineOk (size : Nat → M Nat) (ascii : Nat → Nat → M (List (Nat × Byte) × Nat)) (line : List Byte) (e : Nat) : Prop where
  size : size e = .ok line.length
  ascii : ∀ fp, ∃ acts, ascii fp e = .ok (acts, fp + line.length) ∧ Puts acts fp line

theorem sizeLoopE_ok {es : List Nat} (h : ∀ e ∈ es, LineOk size ascii (line e) e) : sizeLoopE size es = .ok (es.flatMap line).length := by
  induction es with
  | nil => rfl
  | cons e es ih =>
    rw [sizeLoopE, (h e (List.mem_cons_self ..)).size, ok_bind, ih (fun a ha => h a (List.mem_cons_of_mem _ ha)), ok_bind, List.flatMap_cons, List.length_append]

theorem writeLoop_ok {es : List Nat} (h : ∀ e ∈ es, LineOk size ascii (line e) e) : ∀ fp, ∃ acts, writeLoop ascii fp es = .ok acts ∧
    Puts acts fp (es.flatMap line) := by
  induction es with
  | nil => exact fun fp => ⟨[], rfl, Puts.nil fp⟩
  | cons e es ih =>
    intro fp
    obtain ⟨a, h1, h2⟩ := (h e (List.mem_cons_self ..)).ascii fp
    obtain ⟨b, h3, h4⟩ := ih (fun a ha => h a (List.mem_cons_of_mem _ ha)) (fp + (line e).length)
    refine ⟨a ++ b, ?_, h2.append h4⟩
    rw [writeLoop, h1, ok_bind]
    simp only
    rw [h3, ok_bind]

theorem threads_ok {its : List (List Nat)} (h : ∀ l ∈ its, ∀ e ∈ l, LineOk size ascii (line e) e) : ∀ p, ∃ threads,
    mapE (fun q : Nat × List Nat => writeLoop ascii (0 + q.1) q.2) ((p :: prefixSums p (its.map (fun l => (l.flatMap line).length))).zip its) = .ok threads ∧
    Chain p threads (its.map (fun l => l.flatMap line)) := by
  induction its with
  | nil => exact fun p => ⟨[], rfl, trivial⟩
  | cons l its ih =>
    intro p
    obtain ⟨a, h1, h2⟩ := writeLoop_ok (h l (List.mem_cons_self ..)) p
    obtain ⟨as, h3, h4⟩ := ih (fun l hl => h l (List.mem_cons_of_mem _ hl)) (p + (l.flatMap line).length)
    refine ⟨a :: as, ?_, h2, h4⟩
    rw [List.map_cons, prefixSums, List.zip_cons_cons, mapE]
    simp only [Nat.zero_add] at h3 ⊢
    rw [h1, ok_bind, h3, ok_bind]

theorem total_ok (sizes : List Nat) : ∀ p, (p :: prefixSums p sizes).getD sizes.length 0 = p + sizes.sum := by
  induction sizes with
  | nil => intro p; simp
  | cons s sizes ih =>
    intro p
    rw [prefixSums, List.length_cons, List.getD_cons_succ, ih, List.sum_cons, Nat.add_assoc]

theorem flatten_flatMap {α β : Type} (f : α → List β) (its : List (List α)) : (its.map (fun l => l.flatMap f)).flatten = its.flatten.flatMap f := by
  induction its with
  | nil => rfl
  | cons a its ih => rw [List.map_cons, List.flatten_cons, ih, List.flatten_cons, List.flatMap_append]

/-- Writing with the same assignment in both passes: the lines in the order of the assignment. -/
theorem twoPass_all {its : List (List Nat)} (h : ∀ e ∈ its.flatten, LineOk size ascii (line e) e) (hne : its.flatten.flatMap line ≠ []) :
    (twoPass size ascii its its).All (fun bs => bs = its.flatten.flatMap line) := by
  have h' : ∀ l ∈ its, ∀ e ∈ l, LineOk size ascii (line e) e := fun l hl e he => h e (List.mem_flatten.mpr ⟨l, hl, he⟩)
  unfold twoPass
  refine R.All.step (mapE_mem_ok (g := fun l => (l.flatMap line).length) (fun l hl => sizeLoopE_ok (h' l hl))) ?_
  have hsum : (its.map (fun l => (l.flatMap line).length)).sum = (its.flatten.flatMap line).length := by
    rw [← flatten_flatMap, List.length_flatten, List.map_map]; rfl
  have htot := total_ok (its.map (fun l => (l.flatMap line).length)) 0
  rw [List.length_map, hsum, Nat.zero_add] at htot
  have hpos := List.length_pos_iff.mpr hne
  simp only [posOffsets]
  refine R.All.step (a := ⟨0, List.replicate ((its.flatten.flatMap line).length - 1) 0 ++ [1]⟩) (by unfold openW; rw [htot]; exact if_neg (by omega)) ?_
  obtain ⟨threads, h1, h2⟩ := threads_ok h' 0
  refine R.All.step h1 ?_
  have := h2.par (mem := List.replicate ((its.flatten.flatMap line).length - 1) 0 ++ [1]) (by
    rw [flatten_flatMap, List.length_append, List.length_replicate]
    show _ = _ - 1 + 1
    omega)
  rwa [flatten_flatMap] at this

/-! ## The lines -/

theorem str_sp : str " " = [32] := by decide
theorem str_nl : str "\n" = [10] := by decide

theorem ex_acts {a : List (Nat × Byte)} {fp p p' : Nat} {t : List Byte} (hp : p = p') (h : Puts a fp t) :
    ∃ acts, (Except.ok (a, p) : M (List (Nat × Byte) × Nat)) = .ok (acts, p') ∧ Puts acts fp t := ⟨a, by rw [hp], h⟩

theorem cooLine_ok {wt : WText W} {txt : W → List Byte} {c : Coo W} {es : List (Nat × Nat × W)} (h : Holds c wt.wgt es)
    (hw : wt.wgt = true → ∀ p ∈ es, wt.Ok (txt p.2.2) p.2.2) {e : Nat} {p : Nat × Nat × W} (he : es[e]? = some p) :
    LineOk (cooLineSize wt c) (cooLineActs wt c) (Spec.cooLine wt.wgt txt p) e := by
  have hx : load c.x e = .ok p.1 := load_ok (by rw [h.x, List.getElem?_map, he]; rfl)
  have hy : load c.y e = .ok p.2.1 := load_ok (by rw [h.y, List.getElem?_map, he]; rfl)
  constructor
  · unfold cooLineSize
    rw [hx, ok_bind, hy, ok_bind]
    simp only [Spec.cooLine, writeSizeU_eq, List.length_append, str_sp, str_nl]
    split
    · rename_i hg
      rw [load_ok (v := p.2.2) (by rw [h.w hg, List.getElem?_map, he]; rfl), ok_bind, (hw hg p (List.mem_of_getElem? he)).size]
      simp only [List.length_append, List.length_cons, List.length_nil, Nat.add_assoc, Nat.zero_add]
    · simp
  · intro fp
    unfold cooLineActs
    simp only [hx, hy, ok_bind, Spec.cooLine, str_sp, str_nl, putChar]
    have e1 := (writeAsciiU_acts fp p.1).2
    rw [e1]
    have e2 := (writeAsciiU_acts (fp + (Spec.showNat p.1).length + 1) p.2.1).2
    rw [e2]
    have p1 := ((puts_uint fp p.1).then (puts_char (fp + (Spec.showNat p.1).length) 32) rfl).then
      (puts_uint (fp + (Spec.showNat p.1).length + 1) p.2.1) (by rw [List.length_append, List.length_singleton]; omega)
    split
    · rename_i hg
      rw [load_ok (v := p.2.2) (by rw [h.w hg, List.getElem?_map, he]; rfl), ok_bind]
      obtain ⟨a, h1, h2⟩ := (hw hg p (List.mem_of_getElem? he)).ascii (fp + (Spec.showNat p.1).length + 1 + (Spec.showNat p.2.1).length + 1)
      rw [h1, ok_bind]
      refine ex_acts ?_ ?_
      · simp only [List.length_append, List.length_singleton]; omega
      · have := (p1.then (puts_char (fp + (Spec.showNat p.1).length + 1 + (Spec.showNat p.2.1).length) 32)
          (by simp only [List.length_append, List.length_singleton]; omega)).then h2 (by simp only [List.length_append, List.length_singleton]; omega)
        simpa only [putChar, List.append_assoc] using this
    · refine ex_acts ?_ ?_
      · simp only [List.length_append, List.length_singleton, List.length_nil]; omega
      · have := p1.then (puts_char (fp + (Spec.showNat p.1).length + 1 + (Spec.showNat p.2.1).length) 10)
          (by simp only [List.length_append, List.length_singleton]; omega)
        simpa only [putChar, List.append_assoc, List.nil_append] using this

end Pigo
