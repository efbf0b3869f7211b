import Verif.Props.Write
import Verif.Props.Cut

/-!
# Writing a tensor without coordinates

Outside of C48 (order ≥ 1). A weighted tensor of order 0 (what loading a file with only weights gives) has its newlines left out of the
size computed by the first pass.
-/

namespace Pigo

variable {W : Type}

section
variable {size : Nat → M Nat} {ascii : Nat → Nat → M (List (Nat × Byte) × Nat)} {len : Nat → Nat}

/-- The first pass counts one byte less than the second pass writes. -/
structure ShortLine (size : Nat → M Nat) (ascii : Nat → Nat → M (List (Nat × Byte) × Nat)) (len e : Nat) : Prop where
  size : size e = .ok len
  ascii : ∀ fp, ∃ acts b, ascii fp e = .ok (acts ++ [(fp + len, b)], fp + len + 1)

theorem le_sum_of_mem : ∀ {l : List Nat} {x : Nat}, x ∈ l → x ≤ l.sum
  | a :: l, x, h => by
    rw [List.sum_cons]
    rcases List.mem_cons.mp h with rfl | h
    · omega
    · have := le_sum_of_mem h
      omega

theorem sum_nil {len : Nat → Nat} : ∀ {its : List (List Nat)}, (∀ l ∈ its, l = []) → (its.map (fun l => (l.map len).sum)).sum = 0
  | [], _ => rfl
  | b :: its, h => by
    rw [List.map_cons, List.sum_cons, h b (List.mem_cons_self ..), sum_nil (fun c hc => h c (List.mem_cons_of_mem _ hc))]
    rfl

theorem short_size {es : List Nat} (h : ∀ e ∈ es, ShortLine size ascii (len e) e) : sizeLoopE size es = .ok (es.map len).sum := by
  induction es with
  | nil => rfl
  | cons e es ih =>
    rw [sizeLoopE, (h e (List.mem_cons_self ..)).size, ok_bind, ih (fun a ha => h a (List.mem_cons_of_mem _ ha)), ok_bind, List.map_cons, List.sum_cons]

theorem short_write {es : List Nat} (h : ∀ e ∈ es, ShortLine size ascii (len e) e) : ∀ fp, ∃ acts, writeLoop ascii fp es = .ok acts ∧
    (es ≠ [] → ∃ q ∈ acts, fp + (es.map len).sum ≤ q.1) := by
  induction es with
  | nil => exact fun fp => ⟨[], rfl, fun h => absurd rfl h⟩
  | cons e es ih =>
    intro fp
    obtain ⟨a, b, h1⟩ := (h e (List.mem_cons_self ..)).ascii fp
    obtain ⟨acts, h3, h4⟩ := ih (fun a ha => h a (List.mem_cons_of_mem _ ha)) (fp + len e + 1)
    refine ⟨(a ++ [(fp + len e, b)]) ++ acts, ?_, fun _ => ?_⟩
    · rw [writeLoop, h1, ok_bind]
      simp only
      rw [h3, ok_bind]
    · rw [List.map_cons, List.sum_cons]
      rcases es with _ | ⟨e', es⟩
      · exact ⟨(fp + len e, b), by simp, by simp⟩
      · obtain ⟨q, hq, hle⟩ := h4 (by simp)
        exact ⟨q, List.mem_append_right _ hq, by omega⟩

theorem short_threads {its : List (List Nat)} (h : ∀ l ∈ its, ∀ e ∈ l, ShortLine size ascii (len e) e) : ∀ p, ∃ threads,
    mapE (fun q : Nat × List Nat => writeLoop ascii (0 + q.1) q.2) ((p :: prefixSums p (its.map (fun l => (l.map len).sum))).zip its) = .ok threads ∧
    ((∃ l ∈ its, l ≠ []) → ∃ acts ∈ threads, ∃ q ∈ acts, p + (its.map (fun l => (l.map len).sum)).sum ≤ q.1) := by
  induction its with
  | nil => exact fun p => ⟨[], rfl, fun ⟨_, hl, _⟩ => absurd hl (by simp)⟩
  | cons l its ih =>
    intro p
    obtain ⟨a, h1, h2⟩ := short_write (h l (List.mem_cons_self ..)) p
    obtain ⟨as, h3, h4⟩ := ih (fun l hl => h l (List.mem_cons_of_mem _ hl)) (p + (l.map len).sum)
    refine ⟨a :: as, ?_, fun ⟨l', hl', hne⟩ => ?_⟩
    · rw [List.map_cons, prefixSums, List.zip_cons_cons, mapE]
      simp only [Nat.zero_add] at h3 ⊢
      rw [h1, ok_bind, h3, ok_bind]
    · rw [List.map_cons, List.sum_cons]
      by_cases hx : ∃ l ∈ its, l ≠ []
      · obtain ⟨acts, ha, q, hq, hle⟩ := h4 hx
        exact ⟨acts, List.mem_cons_of_mem _ ha, q, hq, by omega⟩
      · have hz : ∀ l ∈ its, l = [] := fun l hl => Classical.byContradiction (fun hn => hx ⟨l, hl, hn⟩)
        have hs : (its.map (fun l => (l.map len).sum)).sum = 0 := by
          exact sum_nil hz
        rcases List.mem_cons.mp hl' with rfl | hl'
        · obtain ⟨q, hq, hle⟩ := h2 hne
          exact ⟨a, List.mem_cons_self .., q, hq, by omega⟩
        · exact absurd (hz l' hl') hne

theorem short_twoPass {its : List (List Nat)} (h : ∀ e ∈ its.flatten, ShortLine size ascii (len e) e) (hne : its.flatten ≠ [])
    (hpos : ∀ e ∈ its.flatten, 0 < len e) {o : M (List Byte)} (ho : (twoPass size ascii its its).Out o) : o = .error .oob := by
  have h' : ∀ l ∈ its, ∀ e ∈ l, ShortLine size ascii (len e) e := fun l hl e he => h e (List.mem_flatten.mpr ⟨l, hl, he⟩)
  unfold twoPass at ho
  obtain ⟨x, rfl, ho⟩ := ho
  rw [mapE_mem_ok (g := fun l => (l.map len).sum) (fun l hl => short_size (h' l hl))] at ho
  simp only at ho
  have htot := total_ok (its.map (fun l => (l.map len).sum)) 0
  rw [List.length_map, Nat.zero_add] at htot
  have hsum : 0 < (its.map (fun l => (l.map len).sum)).sum := by
    obtain ⟨e, he⟩ := List.exists_mem_of_ne_nil _ hne
    have h1 := hpos e he
    obtain ⟨l, hl, hel⟩ := List.mem_flatten.mp he
    have h2 : len e ≤ (l.map len).sum := le_sum_of_mem (List.mem_map.mpr ⟨e, hel, rfl⟩)
    have h3 : (l.map len).sum ≤ (its.map (fun l => (l.map len).sum)).sum := le_sum_of_mem (List.mem_map.mpr ⟨l, hl, rfl⟩)
    omega
  obtain ⟨x, rfl, ho⟩ := ho
  simp only [posOffsets] at ho
  rw [htot, openW, if_neg (by omega)] at ho
  simp only at ho
  obtain ⟨threads, h1, h2⟩ := short_threads h' 0
  obtain ⟨x, rfl, ho⟩ := ho
  rw [h1] at ho
  obtain ⟨sched, hs, rfl⟩ := ho
  obtain ⟨e, he⟩ := List.exists_mem_of_ne_nil _ hne
  obtain ⟨l, hl, hel⟩ := List.mem_flatten.mp he
  obtain ⟨acts, ha, q, hq, hle⟩ := h2 ⟨l, hl, List.ne_nil_of_mem hel⟩
  refine run_store_outside _ _ ⟨q, hs.perm.symm.subset (List.mem_flatten.mpr ⟨acts, ha, hq⟩), ?_⟩
  rw [List.length_append, List.length_replicate, List.length_singleton]
  omega
end

/-- Outside of C48: writing a weighted tensor of order 0 that has entries always stores beyond the file, whatever the number of
threads, the weights and their type. -/
theorem C48_order_zero_overrun (T ob : Nat) (wt : WText W) (hw : wt.wgt = true) (txt : W → List Byte) (ok : W → Prop)
    (hp : Printer wt txt ok) (t : Tensor W) (es : List (List Nat × W)) (h : HoldsT t true es) (h0 : t.order = 0)
    (hok : ∀ e ∈ es, ok e.2) (hne : es ≠ []) (o : M (List Byte)) (ho : (writeTensor T ob wt t).Out o) : o = .error .oob := by
  unfold writeTensor at ho
  obtain ⟨x, ⟨its, hits, rfl⟩, ho⟩ := ho
  have hlt : ∀ e ∈ its.flatten, e < es.length := by
    intro e he
    rw [hits.chunks, h.m, List.mem_range] at he
    exact he
  refine short_twoPass (len := fun e => 1 + ((es[e]?.map (fun p => (txt p.2).length)).getD 0)) (fun e he => ?_) ?_ (fun e _ => by omega) ho
  · have hg := List.getElem?_eq_getElem (hlt e he)
    have hwt := hp.write (hok _ (List.getElem_mem (hlt e he))) hw
    have hl : load t.w e = .ok (es[e]'(hlt e he)).2 := load_ok (by rw [h.w rfl, List.getElem?_map, hg]; rfl)
    refine ⟨?_, fun fp => ?_⟩
    · rw [tensorLineSize, h0]
      simp only [List.range_zero, coordsSize, ok_bind, hw, if_true, hl, hwt.size, hg, Option.map_some, Option.getD_some, Nat.zero_add]
    · obtain ⟨acts, h1, _⟩ := hwt.ascii (fp + 1)
      refine ⟨(putChar fp 32).1 ++ acts, 10, ?_⟩
      rw [tensorLineActs, h0]
      simp only [List.range_zero, coordsActs, ok_bind, hw, if_true, hl, putChar, List.nil_append, hg, Option.map_some, Option.getD_some]
      rw [h1]
      simp only [ok_bind, Nat.add_assoc]
  · rw [hits.chunks, h.m]
    have := List.length_pos_iff.mpr hne
    intro hn
    rw [List.range_eq_nil] at hn
    omega

/-- Two weights without coordinates, with 4 threads. -/
example (o : M (List Byte)) (ho : (writeTensor 4 8 wtUint { c := [], w := [7, 12], order := 0, m := 2 }).Out o) : o = .error .oob :=
  C48_order_zero_overrun 4 8 wtUint rfl _ _ .uint _ [([], 7), ([], 12)] ⟨rfl, by simp, rfl, fun _ => rfl⟩ rfl (fun _ _ => trivial) (by simp) o ho

end Pigo
