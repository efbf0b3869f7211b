import Verif.Spec.Session
import Verif.Props.CrossFile
import Verif.Props.Total

/-!
# Objects and graphs
-/

namespace Pigo.Session

variable {W : Type}

open Pigo (Holds IsCsr rowTriples wOpt)

/-- An entry as an edge. -/
def view (wgt : Bool) (e : Nat × Nat × W) : Nat × Nat × Option W := (e.1, e.2.1, wOpt wgt e.2.2)

theorem flatMap_perm {α β : Type} {f g : α → List β} : ∀ (l : List α), (∀ a ∈ l, (f a).Perm (g a)) → (l.flatMap f).Perm (l.flatMap g)
  | [], _ => .refl _
  | a :: l, h => by
    rw [List.flatMap_cons, List.flatMap_cons]
    exact (h a List.mem_cons_self).append (flatMap_perm l (fun b hb => h b (List.mem_cons_of_mem _ hb)))

theorem holds_edges {wgt : Bool} {c : Coo W} {es : List (Nat × Nat × W)} (h : Holds c wgt es) : Spec.cooEdges wgt c = es.map (view wgt) := by
  unfold Spec.cooEdges
  rw [h.x, h.y, h.m]
  cases wgt with
  | true =>
    rw [if_pos rfl, h.w rfl, List.map_map, List.zip_map', List.zip_map']
    rfl
  | false =>
    rw [if_neg (by decide)]
    have : List.replicate es.length (none : Option W) = es.map (fun _ => none) := by
      rw [List.map_const']
    rw [this, List.zip_map', List.zip_map']
    rfl

theorem cooIs_of {wgt : Bool} {c : Coo W} {s : Net W} {es : List (Nat × Nat × W)} (h : Holds c wgt es) (hn : c.n = s.n)
    (hp : (es.map (view wgt)).Perm s.es) : Spec.CooIs wgt c s where
  x := by rw [h.x, h.m, List.length_map]
  y := by rw [h.y, h.m, List.length_map]
  w := fun hw => by rw [h.w hw, h.m, List.length_map]
  n := hn
  edges := by rw [holds_edges h]; exact hp

theorem zip3_fst {α β γ : Type} : ∀ {x : List α} {y : List β} {z : List γ}, x.length = y.length → y.length = z.length →
    (x.zip (y.zip z)).map (fun e => e.1) = x ∧ (x.zip (y.zip z)).map (fun e => e.2.1) = y ∧ (x.zip (y.zip z)).map (fun e => e.2.2) = z
  | [], [], [], _, _ => ⟨rfl, rfl, rfl⟩
  | a :: x, b :: y, c :: z, h1, h2 => by
    obtain ⟨e1, e2, e3⟩ := zip3_fst (x := x) (y := y) (z := z) (by simpa using h1) (by simpa using h2)
    simp only [List.zip_cons_cons, List.map_cons, e1, e2, e3, and_self]
  | [], _ :: _, _, h, _ => by cases h
  | _ :: _, [], _, h, _ => by cases h
  | _, [], _ :: _, _, h => by cases h
  | _, _ :: _, [], _, h => by cases h

theorem cooIs_holds [Inhabited W] {wgt : Bool} {c : Coo W} {s : Net W} (h : Spec.CooIs wgt c s) :
    ∃ es, Holds c wgt es ∧ (es.map (view wgt)).Perm s.es := by
  have hz : ∃ z : List W, z.length = c.m ∧ (wgt = true → z = c.w) := by
    cases hw : wgt with
    | true => exact ⟨c.w, h.w hw, fun _ => rfl⟩
    | false => exact ⟨List.replicate c.m default, by simp, fun h => by cases h⟩
  obtain ⟨z, hz, hzw⟩ := hz
  obtain ⟨e1, e2, e3⟩ := zip3_fst (x := c.x) (y := c.y) (z := z) (by rw [h.x, h.y]) (by rw [h.y, hz])
  have hh : Holds c wgt (c.x.zip (c.y.zip z)) :=
    ⟨by rw [← List.length_map (f := fun e : Nat × Nat × W => e.1), e1, h.x], e1.symm, e2.symm, fun hw => by rw [e3, hzw hw]⟩
  refine ⟨_, hh, ?_⟩
  rw [← holds_edges hh]
  exact h.edges

theorem isCsr_edges {wgt : Bool} {c : Csr W} {rows : List (List (Nat × W))} (h : IsCsr c wgt rows) :
    Spec.csrEdges wgt c = (rowTriples rows).map (view wgt) := by
  rw [Spec.csrEdges, rowTriples, map_flatMap', ← h.n]
  apply flatMap_congr'
  intro v hv
  have hr := h.getD_row (List.mem_range.mp hv)
  rw [h.row hr]
  cases wgt with
  | true =>
    rw [if_pos rfl, h.rowWeights rfl hr, List.map_map, List.zip_map', List.map_map, List.map_map]
    rfl
  | false =>
    rw [if_neg (by decide), List.map_map, List.zip_map', List.map_map, List.map_map]
    rfl

theorem csrIs_of {wgt : Bool} {c : Csr W} {s : Net W} {rows : List (List (Nat × W))} (h : IsCsr c wgt rows) (hn : c.n = s.n)
    (hp : ((rowTriples rows).map (view wgt)).Perm s.es) : Spec.CsrIs wgt c s :=
  ⟨h.valid, hn, by rw [isCsr_edges h]; exact hp⟩

theorem csrIs_rows [Inhabited W] {wgt : Bool} {c : Csr W} {s : Net W} (h : Spec.CsrIs wgt c s) :
    ∃ rows, IsCsr c wgt rows ∧ ((rowTriples rows).map (view wgt)).Perm s.es := by
  have hi := isCsr_of_valid h.valid (default : W)
  exact ⟨_, hi, by rw [← isCsr_edges hi]; exact h.edges⟩

theorem rowsOf_is {wgt : Bool} {c : Csr W} {n : Nat} {es : List (Nat × Nat × W)} (h : Pigo.Spec.RowsOf c wgt n es) (hlab : ∀ e ∈ es, e.1 < n)
    {s : Net W} (hn : n = s.n) (hp : (es.map (view wgt)).Perm s.es) : Spec.CsrIs wgt c s := by
  refine ⟨h.valid, by rw [h.size, hn], List.Perm.trans ?_ hp⟩
  have hg := (group_perm (fun e : Nat × Nat × W => e.1) n es hlab).map (view wgt)
  rw [map_flatMap'] at hg
  refine List.Perm.trans ?_ hg
  unfold Spec.csrEdges
  rw [h.size]
  refine flatMap_perm _ (fun v hv => ?_)
  have hv := List.mem_range.mp hv
  have hf : ∀ e ∈ es.filter (fun e => e.1 == v), e.1 = v := by
    intro e he
    have := (List.mem_filter.mp he).2
    simpa using this
  cases wgt with
  | true =>
    rw [if_pos rfl, ← List.map_id (Pigo.Spec.row c v), List.zip_map, List.map_map]
    refine ((h.weights rfl v hv).map _).trans (List.Perm.of_eq ?_)
    rw [List.map_map]
    apply List.map_congr_left
    intro e he
    have := hf e he
    simp [view, wOpt, this]
  | false =>
    rw [if_neg (by decide)]
    have e1 : (Pigo.Spec.row c v).zip ((Pigo.Spec.row c v).map (fun _ => (none : Option W))) = (Pigo.Spec.row c v).map (fun u => (u, none)) := by
      generalize Pigo.Spec.row c v = l
      induction l with
      | nil => rfl
      | cons a l ih => rw [List.map_cons, List.zip_cons_cons, ih, List.map_cons]
    rw [e1, List.map_map]
    refine ((h.rows v hv).map _).trans (List.Perm.of_eq ?_)
    rw [List.map_map]
    apply List.map_congr_left
    intro e he
    have := hf e he
    simp [view, wOpt, this]

theorem view_swap {wgt : Bool} (e : Nat × Nat × W) : view wgt (e.2.1, e.1, e.2.2) = Spec.swap (view wgt e) := rfl

theorem transposed_view {wgt : Bool} {es : List (Nat × Nat × W)} {l : List (Nat × Nat × Option W)} (h : (es.map (view wgt)).Perm l) :
    ((Pigo.Spec.transposed es).map (view wgt)).Perm (l.map Spec.swap) := by
  have := h.map Spec.swap
  rw [List.map_map] at this
  rw [Pigo.Spec.transposed, List.map_map]
  exact this

end Pigo.Session
