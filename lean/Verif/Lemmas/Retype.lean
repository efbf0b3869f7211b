import Verif.Model.Retype
import Verif.Lemmas.Graph
import Verif.Lemmas.CsrOps

/-!
# Conversions between types are conversions of the converted object
-/

namespace Pigo

variable {W V : Type}

theorem narrow_lt {w v : Nat} (h : v < 2 ^ w) : narrow w v = v := Nat.mod_eq_of_lt h

theorem narrow_bound (w v : Nat) : narrow w v < 2 ^ w := Nat.mod_lt _ (Nat.two_pow_pos w)

/-- The COO with every value converted. -/
def castCoo (lw ow : Nat) (conv : W → V) (c : Coo W) : Coo V :=
  { x := c.x.map (narrow lw), y := c.y.map (narrow lw), w := c.w.map conv, n := narrow lw c.n, m := narrow ow c.m,
    nrows := narrow lw c.nrows, ncols := narrow lw c.ncols }

/-- The CSR with every value but the offsets converted. -/
def castCsr (lw ow : Nat) (conv : W → V) (c : Csr W) : Csr V :=
  { offsets := c.offsets, endpoints := c.endpoints.map (narrow lw), weights := c.weights.map conv, n := narrow lw c.n,
    m := narrow ow c.m, nrows := narrow lw c.nrows, ncols := narrow lw c.ncols }

theorem load_map {α β : Type} (f : α → β) (l : List α) (i : Nat) : load (l.map f) i = load l i >>= fun a => .ok (f a) := by
  unfold load
  rw [List.getElem?_map]
  cases l[i]? <;> rfl

theorem bind_ok_assoc {α β γ : Type} (m : M α) (f : α → β) (k : β → M γ) : (m >>= fun a => (.ok (f a) : M β)) >>= k = m >>= fun a => k (f a) := by
  cases m <;> rfl

theorem incActTo_eq (lw ow : Nat) (x : List Nat) : incActTo lw ow x = incAct ow (x.map (narrow lw)) := by
  funext e degs
  unfold incActTo incAct
  rw [load_map, bind_ok_assoc]

theorem scatSlotTo_eq (lw : Nat) (x offsets : List Nat) (s : Scatter V) (e : Nat) :
    scatSlotTo lw x offsets s e = scatSlot (x.map (narrow lw)) offsets s e := by
  unfold scatSlotTo scatSlot
  rw [load_map, bind_ok_assoc]
  rfl

theorem scatStepTo_eq (lw : Nat) (conv : W → V) (x y : List Nat) (w : List W) (offsets : List Nat) :
    scatStepTo lw conv x y w offsets = scatStep (x.map (narrow lw)) (y.map (narrow lw)) (w.map conv) offsets := by
  funext a s
  cases a with
  | cap e => simp only [scatStepTo, scatStep, load_map, bind_ok_assoc]
  | wr e => simp only [scatStepTo, scatStep, load_map, bind_ok_assoc, scatSlotTo_eq]
  | ww e => simp only [scatStepTo, scatStep, load_map, bind_ok_assoc, scatSlotTo_eq]

theorem countDegreesTo_eq (lw ow T n m : Nat) (x : List Nat) :
    countDegreesTo lw ow T n m x = countDegrees ow T n m (x.map (narrow lw)) := by
  simp only [countDegreesTo, countDegrees, incActTo_eq]

theorem convertCooTo_eq (lw ow T : Nat) (wgt : Bool) (conv : W → V) (c : Coo W) :
    convertCooTo lw ow T wgt conv c = convertCoo lw ow T wgt (castCoo lw ow conv c) := by
  simp only [convertCooTo, convertCoo, countDegreesTo_eq, scatStepTo_eq, castCoo]

/-! ### CSR to COO -/

theorem mapE_mapOk {α β γ : Type} (f : α → M β) (g : β → γ) : ∀ l : List α,
    mapE (fun a => f a >>= fun b => .ok (g b)) l = mapE f l >>= fun bs => .ok (bs.map g) := by
  intro l
  induction l with
  | nil => rfl
  | cons a l ih =>
    simp only [mapE, ih]
    cases f a with
    | error e => rfl
    | ok b =>
      show (mapE f l >>= fun bs => .ok (bs.map g)) >>= (fun bs => _) = (mapE f l >>= fun bs => _) >>= _
      cases mapE f l <;> rfl

theorem loadRange_map {α β : Type} (f : α → β) (l : List α) (s e : Nat) :
    loadRange (l.map f) s e = loadRange l s e >>= fun us => .ok (us.map f) := by
  unfold loadRange
  rw [← mapE_mapOk]
  congr 1
  funext i
  exact load_map f l i

theorem loadWeights_map (stor : Storage) (f : W → V) (l : List W) (s e : Nat) :
    loadWeights stor (l.map f) s e = loadWeights stor l s e >>= fun us => .ok (us.map f) := by
  unfold loadWeights
  split
  · rfl
  · exact loadRange_map f l s e

theorem csrRowTo_eq (lw ow : Nat) (stor : Storage) (cfg : Cfg) (wgt : Bool) (conv : W → V) (c : Csr W) (v : Nat) :
    csrRowTo lw stor cfg wgt conv c v = csrRow stor cfg wgt (castCsr lw ow conv c) v := by
  simp only [csrRowTo, csrRow, castCsr, loadRange_map, loadWeights_map, bind_ok_assoc]
  cases wgt with
  | true => simp only [if_true, bind_ok_assoc, List.map_map]; rfl
  | false => rfl

theorem convertCsrTo_eq (lw ow T : Nat) (stor : Storage) (cfg : Cfg) (wgt : Bool) (conv : W → V) (c : Csr W) :
    convertCsrTo lw ow T stor cfg wgt conv c = convertCsr ow T stor cfg wgt (castCsr lw ow conv c) := by
  have h : csrRowTo lw stor cfg wgt conv c = csrRow stor cfg wgt (castCsr lw ow conv c) :=
    funext (csrRowTo_eq lw ow stor cfg wgt conv c)
  simp only [convertCsrTo, convertCsr, h]
  rfl

/-! ### DiGraph and Matrix -/

theorem copyCoo_eq {T : Nat} {wgt : Bool} {c : Coo W} (hx : c.x.length = c.m) (hy : c.y.length = c.m) (hw : wgt = true → c.w.length = c.m) :
    (copyCoo T wgt c).All (fun d => d = { c with w := if wgt then c.w else [] }) := copyCoo_all hx hy hw

/-! ### Only the first `m` entries are looked at -/

theorem runActs_congr {α S : Type} {f g : α → S → M S} : ∀ {l : List α}, (∀ a ∈ l, ∀ s, f a s = g a s) → ∀ s, runActs f l s = runActs g l s
  | [], _, _ => rfl
  | a :: l, h, s => by
    have ih : runActs f l = runActs g l := funext (runActs_congr (fun b hb => h b (List.mem_cons_of_mem _ hb)))
    simp only [runActs, h a (List.mem_cons_self ..), ih]

theorem R.par_congr {α S : Type} {f g : α → S → M S} {th : List (List α)} (h : ∀ a ∈ th.flatten, ∀ s, f a s = g a s) (s : S) :
    R.par f th s = R.par g th s := by
  funext out
  apply propext
  constructor
  · rintro ⟨sched, hs, ho⟩
    exact ⟨sched, hs, by rw [ho]; exact runActs_congr (fun a ha => h a (hs.perm.mem_iff.mp ha)) s⟩
  · rintro ⟨sched, hs, ho⟩
    exact ⟨sched, hs, by rw [ho]; exact (runActs_congr (fun a ha => h a (hs.perm.mem_iff.mp ha)) s).symm⟩

theorem R.choose_congr {α β : Type} {P : α → Prop} {k k' : α → R β} (h : ∀ a, P a → k a = k' a) : R.choose P >>= k = R.choose P >>= k' := by
  funext out
  apply propext
  constructor
  · rintro ⟨_, ⟨a, ha, rfl⟩, hk⟩
    exact ⟨_, ⟨a, ha, rfl⟩, show (k' a) out from (congrFun (h a ha) out).mp hk⟩
  · rintro ⟨_, ⟨a, ha, rfl⟩, hk⟩
    exact ⟨_, ⟨a, ha, rfl⟩, show (k a) out from (congrFun (h a ha) out).mpr hk⟩

theorem load_take {α : Type} {l : List α} {m e : Nat} (he : e < m) : load (l.take m) e = load l e := by
  unfold load
  rw [List.getElem?_take, if_pos he]

/-- The COO cut to its first `m` entries. -/
def firstCoo (c : Coo W) : Coo W := { c with x := c.x.take c.m, y := c.y.take c.m, w := c.w.take c.m }

theorem countDegrees_take (ow T n m : Nat) (x : List Nat) : countDegrees ow T n m x = countDegrees ow T n m (x.take m) := by
  unfold countDegrees
  congr 1; funext j1
  congr 1; funext j2
  congr 1; funext j3
  refine R.choose_congr (fun its _ => ?_)
  congr 1; funext all
  refine R.choose_congr (fun its hits => ?_)
  rw [R.par_congr (g := incAct ow (x.take m))]
  intro e he s
  have := List.mem_range.mp (hits.all.mem_iff.mp he)
  unfold incAct
  rw [load_take this]

theorem scatStep_take (x y : List Nat) (w : List W) (offs : List Nat) {m : Nat} {a : ScatAct}
    (h : (match a with | .cap e => e | .wr e => e | .ww e => e) < m) (s : Scatter W) :
    scatStep x y w offs a s = scatStep (x.take m) (y.take m) (w.take m) offs a s := by
  cases a <;> simp only [scatStep, scatSlot, load_take h]

theorem convertCoo_first (lw ow T : Nat) (wgt : Bool) (c : Coo W) : convertCoo lw ow T wgt c = convertCoo lw ow T wgt (firstCoo c) := by
  unfold convertCoo
  simp only [firstCoo]
  congr 1; funext j
  rw [countDegrees_take]
  congr 1; funext p
  obtain ⟨label, starts⟩ := p
  dsimp only
  congr 1; funext offs
  refine R.choose_congr (fun its hits => ?_)
  rw [R.par_congr (g := scatStep (c.x.take c.m) (c.y.take c.m) (c.w.take c.m) offs)]
  intro a ha s
  obtain ⟨l, hl, hal⟩ := List.mem_flatten.mp ha
  obtain ⟨es, hes, rfl⟩ := List.mem_map.mp hl
  obtain ⟨e, he, hae⟩ := List.mem_flatMap.mp hal
  have hlt := List.mem_range.mp (hits.all.mem_iff.mp (List.mem_flatten.mpr ⟨es, hes, he⟩))
  refine scatStep_take _ _ _ _ ?_ s
  unfold scatIter at hae
  cases wgt <;> simp at hae <;> rcases hae with h | h <;> first | (subst h; exact hlt) | (rcases h with h | h <;> (subst h; exact hlt))

/-- An entry with its labels and its weight converted. -/
def castEntry (lw : Nat) (conv : W → V) (e : Nat × Nat × W) : Nat × Nat × V := (narrow lw e.1, narrow lw e.2.1, conv e.2.2)

theorem castCoo_holds {lw ow : Nat} {conv : W → V} {wgt : Bool} {c : Coo W} {es : List (Nat × Nat × W)} (hc : Holds c wgt es) :
    Holds (firstCoo (castCoo lw ow conv c)) wgt ((es.take (narrow ow es.length)).map (castEntry lw conv)) where
  m := by
    show narrow ow c.m = _
    rw [List.length_map, List.length_take, hc.m, Nat.min_eq_left (show narrow ow es.length ≤ es.length from Nat.mod_le _ _)]
  x := by
    show (c.x.map (narrow lw)).take (narrow ow c.m) = _
    rw [hc.x, hc.m, List.map_map, ← List.map_take, List.map_map]; rfl
  y := by
    show (c.y.map (narrow lw)).take (narrow ow c.m) = _
    rw [hc.y, hc.m, List.map_map, ← List.map_take, List.map_map]; rfl
  w := fun h => by
    show (c.w.map conv).take (narrow ow c.m) = _
    rw [hc.w h, hc.m, List.map_map, ← List.map_take, List.map_map]; rfl

end Pigo
