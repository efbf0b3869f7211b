import Verif.Spec.EdgeIter
import Verif.Lemmas.AliasObj

/-!
# Loops over edge iterators
-/

namespace Pigo.Alias

open Pigo.Life (HFault HM Val)

theorem block_eq {h : Heap} {p : Nat} {b : List Nat} {c : Nat} (e : h.mem p = some (b, c)) : h.block (some p) = .ok (p, b, c) := by
  simp only [Heap.block, e]

theorem elem_eq {h : Heap} {p : Nat} {b : List Nat} {c i x : Nat} (e : h.mem p = some (b, c)) (hi : b[i]? = some x) : elem (some p) i h = .ok x := by
  unfold elem
  rw [bind_ok (block_eq e)]
  simp only [hi]

theorem setElem_eq {h : Heap} {p : Nat} {b : List Nat} {c i x : Nat} (e : h.mem p = some (b, c)) (hi : i < b.length) :
    setElem (some p) i x h = .ok (h.set p (some (b.set i x, c))) := by
  unfold setElem
  rw [bind_ok (block_eq e)]
  simp only [if_pos hi]

/-- The elements after the assignments at `pos ≤ i < stop`. -/
def upd (f : Nat → Option Nat) (b : List Nat) (pos stop : Nat) : List Nat := Spec.assigned b pos stop f

theorem upd_done (f : Nat → Option Nat) (b : List Nat) (pos : Nat) : upd f b pos pos = b := by
  simp [upd, Spec.assigned, Spec.slice]

theorem slice_cons {b : List Nat} {pos stop x : Nat} (hx : b[pos]? = some x) (h : pos < stop) :
    Spec.slice b pos stop = x :: Spec.slice b (pos + 1) stop := by
  have hlt := (List.getElem?_eq_some_iff.mp hx).1
  have hv := (List.getElem?_eq_some_iff.mp hx).2
  unfold Spec.slice
  rw [List.drop_eq_getElem_cons hlt, hv, show stop - pos = (stop - (pos + 1)) + 1 by omega, List.take_succ_cons]

theorem slice_set {b : List Nat} {pos stop x : Nat} : Spec.slice (b.set pos x) (pos + 1) stop = Spec.slice b (pos + 1) stop := by
  unfold Spec.slice
  rw [List.drop_set_of_lt (by omega)]

theorem upd_cons {f : Nat → Option Nat} {b : List Nat} {pos stop x : Nat} (hx : b[pos]? = some x) (h : pos < stop) :
    upd f b pos stop = upd f (b.set pos ((f x).getD x)) (pos + 1) stop := by
  have hlt := (List.getElem?_eq_some_iff.mp hx).1
  unfold upd Spec.assigned
  rw [slice_cons hx h, slice_set, List.map_cons, List.drop_set_of_lt (by omega), List.take_set, List.take_succ_eq_append_getElem hlt]
  have : (b.take pos ++ [b[pos]]).set pos ((f x).getD x) = b.take pos ++ [(f x).getD x] := by
    rw [List.set_append]
    simp [Nat.min_eq_left (Nat.le_of_lt hlt)]
  rw [this]
  simp

theorem set_same {b : List Nat} {i x : Nat} (h : b[i]? = some x) : b.set i x = b := by
  obtain ⟨hlt, rfl⟩ := List.getElem?_eq_some_iff.mp h
  exact List.set_getElem_self hlt

theorem mod_succ {pos stop ow : Nat} (h : pos < stop) (hs : stop < 2 ^ ow) : (pos + 1) % 2 ^ ow = pos + 1 := Nat.mod_eq_of_lt (by omega)

/-- The loop.  `P` is kept by the body and by the assignments; the body leaves the memory as it is. -/
theorem edgeLoop_ok {β : Type} {ow : Nat} {body : Nat → Heap → HM (Option Nat × β × Heap)} {f : Nat → Option Nat} {g : Nat → β} {p : Nat} {c : Nat}
    {stop : Nat} (hs : stop < 2 ^ ow) (P : Heap → Prop) (row : List Nat)
    (hbody : ∀ u ∈ row, ∀ h, P h → ∃ h', body u h = .ok (f u, g u, h') ∧ h'.mem = h.mem ∧ P h')
    (hset : ∀ u ∈ row, ∀ x b h, f u = some x → P h → P (h.set p (some (b, c)))) :
    ∀ (fuel pos : Nat) (b : List Nat) (h : Heap), pos ≤ stop → stop < fuel + pos → stop ≤ b.length → h.mem p = some (b, c) → P h →
      (∀ u ∈ Spec.slice b pos stop, u ∈ row) →
      ∃ h', edgeLoop ow body (some p) fuel pos stop h = .ok ((Spec.slice b pos stop).map g, h') ∧
        h'.mem = (h.set p (some (upd f b pos stop, c))).mem ∧ P h'
  | 0, pos, b, h, h1, h2, _, _, _, _ => by omega
  | fuel + 1, pos, b, h, h1, h2, h3, hm, hP, hrow => by
    unfold edgeLoop
    by_cases hpos : pos = stop
    · subst hpos
      rw [if_pos rfl]
      refine ⟨h, by simp [Spec.slice], ?_, hP⟩
      funext a
      rw [upd_done]
      simp only [Heap.set]
      split
      · next e => rw [e, hm]
      · rfl
    · rw [if_neg hpos]
      have hlt : pos < b.length := by omega
      obtain ⟨x, hx⟩ : ∃ x, b[pos]? = some x := ⟨_, List.getElem?_eq_getElem hlt⟩
      rw [bind_ok (elem_eq hm hx)]
      have hxr : x ∈ row := hrow x (by rw [slice_cons hx (by omega)]; exact List.mem_cons_self)
      obtain ⟨h', e1, e2, e3⟩ := hbody x hxr h hP
      rw [bind_ok e1]
      have hm' : h'.mem p = some (b, c) := by rw [e2]; exact hm
      rw [mod_succ (show pos < stop by omega) hs]
      have key : ∀ b' : List Nat, b'.length = b.length → (Spec.slice b' (pos + 1) stop = Spec.slice b (pos + 1) stop) →
          b' = b.set pos ((f x).getD x) → ∀ h'' : Heap, P h'' → h''.mem p = some (b', c) → (∀ a, a ≠ p → h''.mem a = h.mem a) →
          ∃ h3, (edgeLoop ow body (some p) fuel (pos + 1) stop h'' >>= fun t => (.ok (g x :: t.1, t.2) : HM (List β × Heap))) =
            .ok ((Spec.slice b pos stop).map g, h3) ∧ h3.mem = (h.set p (some (upd f b pos stop, c))).mem ∧ P h3 := by
        intro b' hl hsl hb' h'' hP'' hm'' hoth
        obtain ⟨h3, e4, e5, e6⟩ := edgeLoop_ok hs P row hbody hset fuel (pos + 1) b' h'' (by omega) (by omega) (by rw [hl]; exact h3) hm'' hP''
          (by
            rw [hsl]
            intro u hu
            exact hrow u (by rw [slice_cons hx (by omega)]; exact List.mem_cons_of_mem _ hu))
        refine ⟨h3, ?_, ?_, e6⟩
        · rw [bind_ok e4, slice_cons hx (by omega), List.map_cons, hsl]
        · rw [e5, upd_cons hx (by omega), ← hb']
          funext a
          simp only [Heap.set]
          split
          · rfl
          · next hne => exact hoth a hne
      cases hf : f x with
      | none =>
        have := key b rfl rfl (by rw [hf]; exact (set_same hx).symm) h' e3 hm' (fun a _ => by rw [e2])
        exact this
      | some y =>
        have e7 : setElem (some p) pos y h' = .ok (h'.set p (some (b.set pos y, c))) := setElem_eq hm' hlt
        have := key (b.set pos y) (by simp) slice_set (by rw [hf]; rfl) (h'.set p (some (b.set pos y, c))) (hset x hxr y _ h' hf e3)
          (by simp [Heap.set]) (fun a ha => by simp [Heap.set, ha, e2])
        simp only [bind_ok e7]
        exact this

/-! ## copies of the storage -/

theorem Sane.set {h : Heap} (H : Spec.Sane h) {p : Nat} {x : Option Block} (hp : p < h.next) (hx : ∀ b c, x = some (b, c) → 0 < c) :
    Spec.Sane (h.set p x) := by
  refine ⟨fun a ha => ?_, fun a b c e => ?_⟩
  · have ha : h.next ≤ a := ha
    simp only [Heap.set]
    rw [if_neg (by omega)]
    exact H.next a ha
  · simp only [Heap.set] at e
    split at e
    · exact hx b c e
    · exact H.owned a b c e

theorem Sane.lt {h : Heap} (H : Spec.Sane h) {p : Nat} {b : List Nat} {c : Nat} (e : h.mem p = some (b, c)) : p < h.next := by
  rcases Nat.lt_or_ge p h.next with hlt | hge
  · exact hlt
  · rw [H.next p hge] at e; cases e

theorem Sane.of_mem {h h' : Heap} (H : Spec.Sane h) (hm : h'.mem = h.mem) (hn : h.next ≤ h'.next) : Spec.Sane h' :=
  ⟨fun a ha => by rw [hm]; exact H.next a (by omega), fun a b c e => H.owned a b c (by rw [← hm]; exact e)⟩

/-- The memory after a copy of the vector at `p` is made. -/
def vecCopy (b : List Nat) (h : Heap) : Heap := ⟨h.next + 2, fun a => if a = h.next + 1 then some (b, 1) else h.mem a⟩

theorem vecCopy_sane {h : Heap} (H : Spec.Sane h) (b : List Nat) : Spec.Sane (vecCopy b h) := by
  refine ⟨fun a ha => ?_, fun a b' c e => ?_⟩
  · have ha : h.next + 2 ≤ a := ha
    simp only [vecCopy]
    rw [if_neg (by omega)]
    exact H.next a (by omega)
  · simp only [vecCopy] at e
    split at e
    · cases e; omega
    · exact H.owned a b' c e

theorem member_raw (s : Slot) (h : Heap) : member .raw s h = .ok (s, h) := rfl

theorem dup_shared {h : Heap} {p : Nat} {b : List Nat} {c : Nat} (e : h.mem p = some (b, c)) :
    dup .shared (some p) h = .ok (some p, h.set p (some (b, c + 1))) := by
  unfold dup
  dsimp only
  rw [bind_ok (block_eq e)]

theorem drop_shared {h : Heap} {p : Nat} {b : List Nat} {c : Nat} (e : h.mem p = some (b, c + 1)) (hc : 0 < c) :
    drop .shared (some p) h = .ok (h.set p (some (b, c))) := by
  unfold drop
  dsimp only
  rw [bind_ok (block_eq e)]
  simp only [if_neg (show ¬ c + 1 = 1 by omega), Nat.add_sub_cancel]

theorem drop_vec {h : Heap} {p : Nat} {b : List Nat} (e : h.mem p = some (b, 1)) : drop .vec (some p) h = .ok (h.set p none) := by
  unfold drop
  dsimp only
  rw [bind_ok (block_eq e)]
  simp only [if_pos]

theorem set_set (h : Heap) (p : Nat) (x y : Option Block) : (h.set p x).set p y = h.set p y := by
  simp only [Heap.set, Heap.mk.injEq, true_and]
  funext a
  split <;> rfl

theorem member_shared {h : Heap} {p : Nat} {b : List Nat} {c : Nat} (e : h.mem p = some (b, c)) :
    member .shared (some p) h = .ok (some p, h.set p (some (b, c + 1))) := by
  unfold member
  rw [bind_ok (dup_shared e)]
  dsimp only
  have e1 : (h.set p (some (b, c + 1))).mem p = some (b, c + 1) := by simp [Heap.set]
  rw [bind_ok (dup_shared e1)]
  dsimp only
  have e2 : ((h.set p (some (b, c + 1))).set p (some (b, c + 1 + 1))).mem p = some (b, c + 1 + 1) := by simp [Heap.set]
  rw [bind_ok (drop_shared e2 (by omega)), set_set, set_set]

theorem member_vec {h : Heap} (H : Spec.Sane h) {p : Nat} {b : List Nat} {c : Nat} (e : h.mem p = some (b, c)) :
    member .vec (some p) h = .ok (some (h.next + 1), vecCopy b h) := by
  have hd : ∀ {h : Heap} {p : Nat} {c : Nat}, h.mem p = some (b, c) → dup .vec (some p) h = .ok (fresh b h) := by
    intro h p c e
    unfold dup
    dsimp only
    rw [bind_ok (block_eq e)]
  unfold member
  rw [bind_ok (hd e)]
  simp only [fresh]
  rw [bind_ok (hd (h := ⟨h.next + 1, fun a => if a = h.next then some (b, 1) else h.mem a⟩) (p := h.next) (c := 1) (by simp))]
  simp only [fresh]
  rw [bind_ok (drop_vec (b := b) (by simp))]
  simp only [vecCopy, Heap.set]
  congr 3
  funext a
  by_cases h1 : a = h.next
  · subst h1
    simp [H.next h.next (Nat.le_refl _)]
  · simp [h1]

/-! ## the loop over an `EdgeIt` -/

/-- The memory after assignments through the iterators: of a vector only a copy changes. -/
def memAfter (S : Stor) (h : Heap) (p : Nat) (b : List Nat) (c : Nat) : Nat → Option Block := if S = .vec then h.mem else (h.set p (some (b, c))).mem

/-- The blocks of `h` still are there with the same elements. -/
def Ext (h h' : Heap) : Prop := ∀ a b c, h.mem a = some (b, c) → ∃ c', h'.mem a = some (b, c') ∧ 0 < c'

theorem Ext.refl {h : Heap} (H : Spec.Sane h) : Ext h h := fun a b c e => ⟨c, e, H.owned a b c e⟩

theorem Ext.trans {h h' h'' : Heap} (x : Ext h h') (y : Ext h' h'') : Ext h h'' := fun a b c e => by
  obtain ⟨c', e', _⟩ := x a b c e
  exact y a b c' e'

theorem Ext.of_mem {h h' h'' : Heap} (x : Ext h h') (e : h''.mem = h'.mem) : Ext h h'' := fun a b c g => by
  rw [e]; exact x a b c g

theorem ext_set {h : Heap} (H : Spec.Sane h) {p : Nat} {b : List Nat} {c c' : Nat} (e : h.mem p = some (b, c)) (hc : 0 < c') : Ext h (h.set p (some (b, c'))) := by
  intro a b' d g
  simp only [Heap.set]
  split
  · next ha =>
    subst ha
    rw [e] at g; cases g
    exact ⟨c', rfl, hc⟩
  · exact ⟨d, g, H.owned a b' d g⟩

theorem ext_vecCopy {h : Heap} (H : Spec.Sane h) (b : List Nat) : Ext h (vecCopy b h) := by
  intro a b' d g
  have := Sane.lt H g
  simp only [vecCopy]
  rw [if_neg (by omega)]
  exact ⟨d, g, H.owned a b' d g⟩

/-- What the body of a loop started in `h0` does: `Q` holds when the loop starts, and is kept by the body and by the assignments. -/
structure Body {β : Type} (body : Nat → Heap → HM (Option Nat × β × Heap)) (f : Nat → Option Nat) (g : Nat → β) (h0 : Heap) (row : List Nat)
    (Q : Heap → Prop) : Prop where
  start : ∀ h, Spec.Sane h → Ext h0 h → Q h
  run : ∀ u ∈ row, ∀ h, Spec.Sane h → Q h → ∃ h', body u h = .ok (f u, g u, h') ∧ h'.mem = h.mem ∧ h.next ≤ h'.next ∧ Q h'
  store : ∀ u ∈ row, ∀ x p b c h, f u = some x → Q h → Q (h.set p (some (b, c)))

theorem Body.ext {β : Type} {body : Nat → Heap → HM (Option Nat × β × Heap)} {f : Nat → Option Nat} {g : Nat → β} {h0 h1 : Heap} {row : List Nat}
    {Q : Heap → Prop} (B : Body body f g h0 row Q) (x : Ext h0 h1) : Body body f g h1 row Q :=
  ⟨fun h H e => B.start h H (x.trans e), B.run, B.store⟩

theorem loop_in {β : Type} {ow : Nat} {body : Nat → Heap → HM (Option Nat × β × Heap)} {f : Nat → Option Nat} {g : Nat → β} {h0 h : Heap} {p c : Nat}
    {b : List Nat} {Q : Heap → Prop} {pos stop : Nat} (B : Body body f g h0 (Spec.slice b pos stop) Q) (H : Spec.Sane h) (x : Ext h0 h)
    (e : h.mem p = some (b, c)) (h1 : pos ≤ stop) (h2 : stop ≤ b.length) (h3 : stop < 2 ^ ow) :
    ∃ h', edgeLoop ow body (some p) (2 ^ ow) pos stop h = .ok ((Spec.slice b pos stop).map g, h') ∧
      h'.mem = (h.set p (some (upd f b pos stop, c))).mem ∧ Spec.Sane h' ∧ h.next ≤ h'.next := by
  have hc := H.owned p b c e
  obtain ⟨h', e1, e2, e3, e4, _⟩ := edgeLoop_ok (f := f) (g := g) (body := body) (ow := ow) (p := p) (c := c) (stop := stop) h3
    (fun h' => Spec.Sane h' ∧ h.next ≤ h'.next ∧ Q h') (Spec.slice b pos stop)
    (fun u hu h' hP => by
      obtain ⟨h'', e1, e2, e3, e4⟩ := B.run u hu h' hP.1 hP.2.2
      exact ⟨h'', e1, e2, Sane.of_mem hP.1 e2 e3, Nat.le_trans hP.2.1 e3, e4⟩)
    (fun u hu x b' h' hf hP => ⟨Sane.set hP.1 (Nat.lt_of_lt_of_le (Sane.lt H e) hP.2.1) (fun b c g => by cases g; exact hc), hP.2.1,
      B.store u hu x p b' c h' hf hP.2.2⟩)
    (2 ^ ow) pos b h h1 (by omega) h2 e ⟨H, Nat.le_refl _, B.start h H x⟩ (fun u hu => hu)
  exact ⟨h', e1, e2, e3, e4⟩

theorem iterateOver_ok {β : Type} {ow : Nat} {S : Stor} {body : Nat → Heap → HM (Option Nat × β × Heap)} {f : Nat → Option Nat} {g : Nat → β}
    {h : Heap} {r : EdgeIt} {p c : Nat} {b : List Nat} {Q : Heap → Prop} (hs : r.s = some p) (B : Body body f g h (Spec.slice b r.begin_ r.end_) Q)
    (H : Spec.Sane h) (e : h.mem p = some (b, c)) (h1 : r.begin_ ≤ r.end_) (h2 : r.end_ ≤ b.length) (h3 : r.end_ < 2 ^ ow) :
    ∃ h', iterateOver ow S body r h = .ok ((Spec.slice b r.begin_ r.end_).map g, h') ∧
      h'.mem = memAfter S h p (upd f b r.begin_ r.end_) c ∧ Spec.Sane h' ∧ h.next ≤ h'.next := by
  have hc := H.owned p b c e
  have hp := Sane.lt H e
  unfold iterateOver
  rw [hs]
  cases S with
  | raw =>
    rw [bind_ok (member_raw _ _)]
    dsimp only
    rw [bind_ok (member_raw _ _)]
    dsimp only
    obtain ⟨h', e1, e2, e3, e4⟩ := loop_in B H (Ext.refl H) e h1 h2 h3
    rw [bind_ok e1]
    exact ⟨h', rfl, by rw [memAfter, if_neg (by decide)]; exact e2, e3, e4⟩
  | shared =>
    rw [bind_ok (member_shared e)]
    dsimp only
    rw [bind_ok (member_shared (c := c + 1) (b := b) (by simp [Heap.set])), set_set]
    dsimp only
    have H1 : Spec.Sane (h.set p (some (b, c + 1 + 1))) := Sane.set H hp (fun b c g => by cases g; omega)
    obtain ⟨h', e1, e2, e3, e4⟩ := loop_in B H1 (ext_set H e (by omega)) (p := p) (c := c + 1 + 1) (by simp [Heap.set]) h1 h2 h3
    rw [bind_ok e1]
    dsimp only
    rw [set_set] at e2
    have m1 : h'.mem p = some (upd f b r.begin_ r.end_, c + 1 + 1) := by rw [e2]; simp [Heap.set]
    rw [bind_ok (drop_shared m1 (by omega)), bind_ok (drop_shared (b := upd f b r.begin_ r.end_) (c := c) (by simp [Heap.set]) hc), set_set]
    refine ⟨_, rfl, ?_, Sane.set e3 (Nat.lt_of_lt_of_le hp e4) (fun b c g => by cases g; exact hc), e4⟩
    rw [memAfter, if_neg (by decide)]
    funext a
    have := congrFun e2 a
    simp only [Heap.set] at this ⊢
    split
    · rfl
    · next hne => rw [if_neg hne] at this; exact this
  | vec =>
    rw [bind_ok (member_vec H e)]
    dsimp only
    have H1 := vecCopy_sane H b
    have e1 : (vecCopy b h).mem p = some (b, c) := by
      simp only [vecCopy]
      rw [if_neg (by omega)]; exact e
    rw [bind_ok (member_vec H1 e1)]
    dsimp only
    have H2 := vecCopy_sane H1 b
    have n1 : (vecCopy b h).next = h.next + 2 := rfl
    have n2 : (vecCopy b (vecCopy b h)).next = h.next + 4 := rfl
    have e2 : (vecCopy b (vecCopy b h)).mem (h.next + 1) = some (b, 1) := by
      simp only [vecCopy]
      simp
    obtain ⟨h', l1, l2, l3, l4⟩ := loop_in B H2 ((ext_vecCopy H b).trans (ext_vecCopy H1 b)) e2 h1 h2 h3
    rw [bind_ok l1]
    dsimp only
    have m1 : h'.mem ((vecCopy b h).next + 1) = some (b, 1) := by
      rw [l2, n1]
      simp [Heap.set, vecCopy]
    rw [bind_ok (drop_vec m1)]
    have m2 : (h'.set ((vecCopy b h).next + 1) none).mem (h.next + 1) = some (upd f b r.begin_ r.end_, 1) := by
      simp only [Heap.set, n1]
      rw [if_neg (by omega), l2]
      simp [Heap.set]
    rw [bind_ok (drop_vec m2)]
    rw [n2] at l4
    refine ⟨_, rfl, ?_, ?_, by show h.next ≤ h'.next; omega⟩
    · rw [memAfter, if_pos rfl]
      funext a
      simp only [Heap.set, n1]
      by_cases a1 : a = h.next + 1
      · rw [if_pos a1, a1, H.next _ (by omega)]
      · rw [if_neg a1]
        by_cases a2 : a = h.next + 2 + 1
        · rw [if_pos a2, a2, H.next _ (by omega)]
        · rw [if_neg a2, l2]
          simp [Heap.set, vecCopy, a1, a2]
    · exact Sane.set (Sane.set l3 (by rw [n1]; omega) (fun b c g => by cases g)) (by show h.next + 1 < h'.next; omega) (fun b c g => by cases g)

/-- The loop over `neighbors(v)`. -/
theorem forNeighbors_ok {β : Type} {lw ow : Nat} {S : Stor} {body : Nat → Heap → HM (Option Nat × β × Heap)} {f : Nat → Option Nat} {g : Nat → β}
    {h : Heap} {o : Obj} {p c v s e : Nat} {ep off : List Nat} {Q : Heap → Prop} (hst : Spec.Stored h o p ep off) (hm : h.mem p = some (ep, c))
    (hr : Spec.RowAt lw ow ep off v s e) (H : Spec.Sane h) (B : Body body f g h (Spec.slice ep s e) Q) :
    ∃ h', forNeighbors lw ow S body o v h = .ok ((Spec.slice ep s e).map g, h') ∧
      h'.mem = memAfter S h p (upd f ep s e) c ∧ Spec.Sane h' ∧ h.next ≤ h'.next := by
  have hc := H.owned p ep c hm
  have hp := Sane.lt H hm
  obtain ⟨q, d, hq, hqm⟩ : ∃ q d, o.slots.getD 1 none = some q ∧ h.mem q = some (off, d) := by
    have h1 := hst.offsets
    have h2 := hr.start
    cases hs : o.slots.getD 1 none with
    | none => rw [hs] at h1; rw [← h1] at h2; simp [contents] at h2
    | some q =>
      rw [hs] at h1
      cases hqm : h.mem q with
      | none => rw [← h1] at h2; simp [contents, hqm] at h2
      | some bd =>
        rw [contents_some (b := bd.1) (c := bd.2) hqm] at h1
        exact ⟨q, bd.2, rfl, by rw [hqm, ← h1]⟩
  have hplus : plusOne lw v = v + 1 := by
    unfold plusOne
    rcases hr.label with h1 | h1
    · rw [if_pos h1]
    · split
      · rfl
      · exact Nat.mod_eq_of_lt h1
  have hedges : ∀ (s' : Slot) (h1 : Heap), member S (some p) h = .ok (s', h1) → edgesOf lw S o v h = .ok (⟨s, e, s'⟩, h1) := by
    intro s' h1 hmem
    unfold edgesOf
    rw [hq, hst.slot, hplus, bind_ok (elem_eq hqm hr.start), bind_ok (elem_eq hqm hr.stop), bind_ok hmem]
  unfold forNeighbors
  cases S with
  | raw =>
    rw [bind_ok (hedges _ _ (member_raw _ _))]
    dsimp only
    obtain ⟨h', e1, e2, e3, e4⟩ := iterateOver_ok (S := .raw) (r := ⟨s, e, some p⟩) rfl B H hm hr.le hr.room hr.ordinal
    rw [bind_ok e1]
    exact ⟨h', rfl, e2, e3, e4⟩
  | shared =>
    rw [bind_ok (hedges _ _ (member_shared hm))]
    dsimp only
    have H1 : Spec.Sane (h.set p (some (ep, c + 1))) := Sane.set H hp (fun b c g => by cases g; omega)
    obtain ⟨h', e1, e2, e3, e4⟩ := iterateOver_ok (S := .shared) (r := ⟨s, e, some p⟩) rfl (B.ext (ext_set H hm (by omega))) H1
      (p := p) (c := c + 1) (by simp [Heap.set]) hr.le hr.room hr.ordinal
    rw [bind_ok e1]
    dsimp only
    rw [memAfter, if_neg (by decide), set_set] at e2
    rw [bind_ok (drop_shared (b := upd f ep s e) (by rw [e2]; simp [Heap.set]) hc)]
    refine ⟨_, rfl, ?_, Sane.set e3 (Nat.lt_of_lt_of_le hp e4) (fun b c g => by cases g; exact hc), e4⟩
    rw [memAfter, if_neg (by decide)]
    funext a
    have := congrFun e2 a
    simp only [Heap.set] at this ⊢
    split
    · rfl
    · next hne => rw [if_neg hne] at this; exact this
  | vec =>
    rw [bind_ok (hedges _ _ (member_vec H hm))]
    dsimp only
    have H1 := vecCopy_sane H ep
    obtain ⟨h', e1, e2, e3, e4⟩ := iterateOver_ok (S := .vec) (r := ⟨s, e, some (h.next + 1)⟩) rfl (B.ext (ext_vecCopy H ep)) H1
      (c := 1) (by simp [vecCopy]) hr.le hr.room hr.ordinal
    rw [bind_ok e1]
    dsimp only
    rw [memAfter, if_pos rfl] at e2
    rw [bind_ok (drop_vec (b := ep) (by rw [e2]; simp [vecCopy]))]
    have e4 : h.next + 2 ≤ h'.next := e4
    refine ⟨_, rfl, ?_, Sane.set e3 (by omega) (fun b c g => by cases g), by show h.next ≤ h'.next; omega⟩
    rw [memAfter, if_pos rfl]
    funext a
    simp only [Heap.set]
    by_cases a1 : a = h.next + 1
    · rw [if_pos a1, a1, H.next _ (by omega)]
    · rw [if_neg a1, e2]
      simp [vecCopy, a1]

end Pigo.Alias
