import Verif.Lemmas.EdgeRegion

/-!
# The plan of `read_el_`: what all threads together store
-/

namespace Pigo

variable {W : Type}

theorem mapE_ok {α β : Type} (f : α → M β) (g : α → β) : ∀ (l : List α), (∀ a ∈ l, f a = .ok (g a)) →
    mapE f l = .ok (l.map g)
  | [], _ => rfl
  | a :: l, h => by
    rw [mapE, h a (List.mem_cons_self ..), ok_bind,
      mapE_ok f g l (fun b hb => h b (List.mem_cons_of_mem _ hb))]
    rfl

theorem zip_map_self {α β : Type} (f : α → β) (l : List α) : l.zip (l.map f) = l.map (fun a => (a, f a)) := by
  induction l with
  | nil => rfl
  | cons a l ih => simp [ih]

theorem prefixSums_getD (cs : List Nat) (acc i : Nat) (h : i < cs.length) :
    (prefixSums acc cs).getD i 0 = acc + (cs.take (i+1)).sum := by
  induction cs generalizing acc i with
  | nil => simp at h
  | cons c cs ih =>
    cases i with
    | zero => simp [prefixSums]
    | succ i =>
      rw [prefixSums, List.getD_cons_succ, ih _ _ (by simpa using h)]
      simp; omega

theorem startOf_eq (cs : List Nat) (tid : Nat) (h : tid ≤ cs.length) :
    startOf (prefixSums 0 cs) tid = (cs.take tid).sum := by
  unfold startOf
  split
  · rw [prefixSums_getD _ _ _ (by omega)]
    rw [show tid - 1 + 1 = tid by omega]; omega
  · rw [show tid = 0 by omega]; rfl

/-! ## geometry of the regions -/

/-- What precedes the first integer of `X`. -/
def garb (X : List Byte) : List Byte := X.take (X.length - (firstIntL X).length)

theorem garb_spec (X : List Byte) : X = garb X ++ firstIntL X ∧ firstIntL (garb X) = [] := by
  obtain ⟨g, h1, h2⟩ := toStop_split isDigit false X
  have : garb X = g := by
    unfold garb
    have hl : X.length - (firstIntL X).length = g.length := by
      have := congrArg List.length h1
      simp only [List.length_append] at this
      unfold firstIntL; omega
    rw [hl]
    conv => lhs; rw [h1]
    simp
  rw [this]; exact ⟨h1, h2⟩

theorem region_garb (A : List (List Byte)) (X : List Byte) (hA : NoNl A) :
    firstIntL (text A ++ X) = firstIntL (text A ++ garb X) ++ firstIntL X := by
  obtain ⟨h1, h2⟩ := garb_spec X
  rcases firstInt_text A hA with ⟨u, _, hu⟩ | hu
  · rw [hu, hu, List.append_assoc, ← h1]
  · rw [hu, hu, h2]; rfl

/-- Byte position where thread `tid` starts looking. -/
def cut (size T tid : Nat) : Nat := tid * size / T

theorem cut_le (size T tid : Nat) (h : tid ≤ T) : cut size T tid ≤ size := by
  unfold cut
  exact Nat.div_le_of_le_mul (Nat.mul_le_mul_right _ h)

theorem cut_mono (size T : Nat) {a b : Nat} (h : a ≤ b) : cut size T a ≤ cut size T b := by
  unfold cut
  exact Nat.div_le_div_right (Nat.mul_le_mul_right _ h)

theorem cut_last (size T : Nat) (h : 0 < T) : cut size T T = size := by
  unfold cut; exact Nat.mul_div_cancel_left _ h

/-- First line of thread `tid`. -/
def lineOf (s : List Byte) (T tid : Nat) : Nat :=
  if tid = 0 then 0 else (s.take (cut s.length T tid)).count nl + 1

theorem lineOf_mono (s : List Byte) (T tid : Nat) : lineOf s T tid ≤ lineOf s T (tid+1) := by
  unfold lineOf
  simp only [Nat.succ_ne_zero, if_false]
  split
  · omega
  · apply Nat.add_le_add_right
    apply List.Sublist.count_le
    have := cut_mono s.length T (Nat.le_succ tid)
    exact (List.take_prefix_take_left this).sublist

/-- The lines of thread `tid`. -/
def segLines (s : List Byte) (ls : List (List Byte)) (T tid : Nat) : List (List Byte) :=
  (ls.drop (lineOf s T tid)).take (lineOf s T (tid+1) - lineOf s T tid)

theorem seg_drop (s : List Byte) (ls : List (List Byte)) (T tid : Nat) :
    ls.drop (lineOf s T tid) = segLines s ls T tid ++ ls.drop (lineOf s T (tid+1)) := by
  have := lineOf_mono s T tid
  unfold segLines
  conv => lhs; rw [← List.take_append_drop (lineOf s T (tid+1) - lineOf s T tid) (ls.drop (lineOf s T tid))]
  rw [List.drop_drop]
  congr 2
  omega

theorem seg_flatten (s : List Byte) (ls : List (List Byte)) (T k : Nat) :
    ((List.range k).map (segLines s ls T)).flatten = ls.take (lineOf s T k) := by
  induction k with
  | zero => simp [lineOf]
  | succ k ih =>
    rw [List.range_succ, List.map_append, List.flatten_append, ih]
    simp only [List.map_cons, List.map_nil, List.flatten_cons, List.flatten_nil, List.append_nil]
    have h := lineOf_mono s T k
    unfold segLines
    conv => rhs; rw [show lineOf s T (k+1) = lineOf s T k + (lineOf s T (k+1) - lineOf s T k) by omega]
    rw [List.take_add]

theorem count_text (ls : List (List Byte)) (tail : List Byte) (h : NoNl ls) :
    (text ls ++ tail).count nl = ls.length + tail.count nl := by
  induction ls with
  | nil => simp
  | cons l ls ih =>
    have := ih (fun l hl => h l (List.mem_cons_of_mem _ hl))
    rw [text_cons, List.append_assoc, List.cons_append, List.count_append, List.count_cons_self, this,
      List.count_eq_zero.mpr (h l (List.mem_cons_self ..))]
    simp; omega

theorem seg_all (ls : List (List Byte)) (tail : List Byte) (hls : NoNl ls) (T : Nat) (hT : 0 < T) :
    ((List.range T).map (segLines (text ls ++ tail) ls T)).flatten = ls := by
  rw [seg_flatten]
  apply List.take_of_length_le
  unfold lineOf
  rw [if_neg (by omega), cut_last _ _ hT, List.take_length, count_text ls tail hls]
  omega

section
variable {μ : Mapping}

theorem plus_rd {e : Nat} {s : List Byte} (v : View μ e s) {k : Nat} (hk : k ≤ s.length) :
    (rd e s).plus k = rd e (s.drop k) := by
  have := v.length_le
  have hn : ¬ ((rd e s).d + k > (rd e s).e) := by simp only [rd]; omega
  simp only [Reader.plus, if_neg hn]
  simp only [rd, List.length_drop, Reader.mk.injEq, and_true]; omega

theorem smallerEnd_rd {e : Nat} {R F : List Byte} (v : View μ e (R ++ F)) :
    (rd e (R ++ F)).smallerEnd (rd e F) = rd (e - F.length) R := by
  have := v.length_le
  simp only [List.length_append] at this
  by_cases hF : F.length = 0
  · have hn : ¬ ((rd e F).d < (rd e (R ++ F)).e) := by simp only [rd]; omega
    simp only [Reader.smallerEnd, if_neg hn]
    simp only [rd, List.length_append, Reader.mk.injEq]; omega
  · have hn : ((rd e F).d < (rd e (R ++ F)).e) := by simp only [rd]; omega
    simp only [Reader.smallerEnd, if_pos hn]
    simp only [rd, List.length_append, Reader.mk.injEq, and_true]; omega

theorem View.shrink {e : Nat} {R F : List Byte} (v : View μ e (R ++ F)) : View μ (e - F.length) R := by
  obtain ⟨p, hp⟩ := v.suf
  have hl := v.le
  have hlen : p.length + (R.length + F.length) = e := by
    have := congrArg List.length hp
    simp at this; omega
  refine ⟨⟨p, ?_⟩, by omega⟩
  have : μ.bytes.take (e - F.length) = (μ.bytes.take e).take (e - F.length) := by
    rw [List.take_take]; congr 1; omega
  rw [this, ← hp, ← List.append_assoc, List.take_append_of_le_length (by simp; omega)]
  symm
  apply List.take_of_length_le
  simp; omega

/-- The situation at the start of `read_el_`: the reader has `text ls ++ tail` left. -/
structure ElState (μ : Mapping) (e : Nat) (ls : List (List Byte)) (tail : List Byte) : Prop where
  view : View μ e (text ls ++ tail)
  rdb : Readable μ e
  nonl : NoNl ls
  tnonl : nl ∉ tail
  tint : firstIntL tail = []

variable {e : Nat} {ls : List (List Byte)} {tail : List Byte}

/-- The text between the first integers of thread `tid` and thread `tid+1`. -/
def regionOf (ls : List (List Byte)) (tail : List Byte) (T tid : Nat) : List Byte :=
  firstIntL (text (segLines (text ls ++ tail) ls T tid) ++
    garb (text (ls.drop (lineOf (text ls ++ tail) T (tid+1))) ++ tail))

/-- End offset of the region of thread `tid`. -/
def endOf (e : Nat) (ls : List (List Byte)) (tail : List Byte) (T tid : Nat) : Nat :=
  e - (firstIntL (text (ls.drop (lineOf (text ls ++ tail) T (tid+1))) ++ tail)).length

theorem elRegion_eq (st : ElState μ e ls tail) {T tid : Nat} (hT : tid < T) :
    elRegion μ (rd e (text ls ++ tail)) T tid = .ok (rd (endOf e ls tail T tid) (regionOf ls tail T tid)) ∧
    View μ (endOf e ls tail T tid) (regionOf ls tail T tid) ∧ Readable μ (endOf e ls tail T tid) := by
  have hs := st.view
  have hN := st.nonl
  have k1 := cut_le (text ls ++ tail).length T tid (by omega)
  have k2 := cut_le (text ls ++ tail).length T (tid+1) (by omega)
  have next : ∀ k, k ≤ (text ls ++ tail).length →
      nextLineInt μ (rd e ((text ls ++ tail).drop k)) =
        .ok (rd e (firstIntL (text (ls.drop (((text ls ++ tail).take k).count nl + 1)) ++ tail))) := by
    intro k hk
    have v1 := hs.of_suffix (List.drop_suffix k (text ls ++ tail))
    rw [nextLineInt, moveToEol_eq v1, ok_bind, moveToNextInt_eq (v1.of_suffix (dropWhile_suffix' _ _)) st.rdb,
      split_next ls tail hN st.tnonl st.tint]
  have hX := region_garb (segLines (text ls ++ tail) ls T tid)
    (text (ls.drop (lineOf (text ls ++ tail) T (tid+1))) ++ tail)
    (fun l hl => hN l (List.mem_of_mem_drop (List.mem_of_mem_take hl)))
  rw [← List.append_assoc, ← text_append, ← seg_drop] at hX
  have vF : ∀ k, View μ e (firstIntL (text (ls.drop k) ++ tail)) := by
    intro k
    refine hs.of_suffix ((toStop_suffix _ _ _).trans ?_)
    conv => rhs; rw [← List.take_append_drop k ls, text_append, List.append_assoc]
    exact List.suffix_append _ _
  have e2 : lineOf (text ls ++ tail) T (tid+1) =
      ((text ls ++ tail).take (cut (text ls ++ tail).length T (tid+1))).count nl + 1 := by
    simp [lineOf]
  have hvr : View μ e (regionOf ls tail T tid ++
      firstIntL (text (ls.drop (lineOf (text ls ++ tail) T (tid+1))) ++ tail)) := by
    have := vF (lineOf (text ls ++ tail) T tid)
    rw [hX] at this; exact this
  have hstart : elStart μ (rd e ((text ls ++ tail).drop (cut (text ls ++ tail).length T tid))) tid =
      .ok (rd e (firstIntL (text (ls.drop (lineOf (text ls ++ tail) T tid)) ++ tail))) := by
    unfold elStart
    by_cases ht : tid = 0
    · subst ht
      rw [if_neg (by simp)]
      have : cut (text ls ++ tail).length T 0 = 0 := by simp [cut]
      rw [this, List.drop_zero, moveToFirstInt_eq hs st.rdb]
      simp [lineOf]
    · rw [if_pos ht, next _ k1]
      simp [lineOf, ht]
  refine ⟨?_, hvr.shrink, ?_⟩
  · unfold elRegion
    rw [size_rd hs]
    change (nextLineInt μ ((rd e (text ls ++ tail)).plus (cut (text ls ++ tail).length T (tid+1))) >>= fun re =>
      elStart μ ((rd e (text ls ++ tail)).plus (cut (text ls ++ tail).length T tid)) tid >>= fun rs =>
      Except.ok (rs.smallerEnd re)) = _
    rw [plus_rd hs k1, plus_rd hs k2, hstart, next _ k2, ok_bind, ok_bind, ← e2, hX]
    congr 1
    exact smallerEnd_rd hvr
  · have := st.rdb
    unfold Readable endOf at *
    omega

end

/-! ## stores of a list of entries -/

/-- The stores for the entries `es`, starting at position `p`. -/
def actsOf (cfg : Cfg) (wgt : Bool) : Nat → List (Nat × Nat × W) → List (Act W)
  | _, [] => []
  | p, en :: es => entryActs wgt p (storedC cfg en) ++ actsOf cfg wgt (p + (storedC cfg en).length) es

theorem actsOf_append (cfg : Cfg) (b : Bool) (p : Nat) (A B : List (Nat × Nat × W)) :
    actsOf cfg b p (A ++ B) = actsOf cfg b p A ++ actsOf cfg b (p + total cfg A) B := by
  induction A generalizing p with
  | nil => simp [actsOf]
  | cons en A ih => simp [actsOf, ih, total_cons, Nat.add_assoc]

theorem setLine_acts (cfg : Cfg) (b : Bool) (st : SetSt W) (en) :
    (setLine cfg b st en).acts = st.acts ++ entryActs b st.pos (storedC cfg en) ∧
    (setLine cfg b st en).pos = st.pos + (storedC cfg en).length := by
  unfold setLine
  cases h : storedC cfg en with
  | nil => simp [entryActs]
  | cons a more => obtain ⟨x, y, w⟩ := a; simp

theorem foldl_setLine_acts (cfg : Cfg) (b : Bool) (es : List (Nat × Nat × W)) (st : SetSt W) :
    (es.foldl (setLine cfg b) st).acts = st.acts ++ actsOf cfg b st.pos es := by
  induction es generalizing st with
  | nil => simp [actsOf]
  | cons en es ih =>
    obtain ⟨h1, h2⟩ := setLine_acts cfg b st en
    rw [List.foldl_cons, ih, h1, h2, actsOf, List.append_assoc]

/-- The entries that determine the dimensions. -/
def prims (cfg : Cfg) (es : List (Nat × Nat × W)) : List (Nat × Nat × W) :=
  es.filterMap (Spec.primary cfg.sym cfg.ut cfg.sl)

theorem foldl_max_init (l : List Nat) (a : Nat) : l.foldl max a = max a (Spec.maxOf l) := by
  unfold Spec.maxOf
  induction l generalizing a with
  | nil => simp
  | cons b l ih =>
    simp only [List.foldl_cons]
    rw [ih, ih (max 0 b)]
    omega

theorem maxOf_cons (a : Nat) (l : List Nat) : Spec.maxOf (a :: l) = max a (Spec.maxOf l) := by
  have := foldl_max_init l (max 0 a)
  unfold Spec.maxOf at *
  simp only [List.foldl_cons]
  rw [this]; omega

theorem maxOf_append (a b : List Nat) : Spec.maxOf (a ++ b) = max (Spec.maxOf a) (Spec.maxOf b) := by
  induction a with
  | nil => simp [Spec.maxOf]
  | cons x a ih => rw [List.cons_append, maxOf_cons, maxOf_cons, ih]; omega

theorem foldl_setLine_max (cfg : Cfg) (b : Bool) (es : List (Nat × Nat × W)) (st : SetSt W) :
    (es.foldl (setLine cfg b) st).mr = max st.mr (Spec.maxOf ((prims cfg es).map (·.1))) ∧
    (es.foldl (setLine cfg b) st).mc = max st.mc (Spec.maxOf ((prims cfg es).map (·.2.1))) := by
  induction es generalizing st with
  | nil => simp [prims, Spec.maxOf]
  | cons en es ih =>
    obtain ⟨h1, h2⟩ := ih (setLine cfg b st en)
    rw [List.foldl_cons, h1, h2]
    have hu : ∀ a x, upd a x = max a x := by intro a x; unfold upd; split <;> omega
    unfold setLine prims
    rw [List.filterMap_cons]
    cases h : storedC cfg en with
    | nil =>
      have h' : Spec.primary cfg.sym cfg.ut cfg.sl en = none := by
        unfold Spec.primary; rw [show Spec.stored cfg.sym cfg.ut cfg.sl en = [] from h]; rfl
      simp [h']
    | cons a more =>
      obtain ⟨x, y, w⟩ := a
      have h' : Spec.primary cfg.sym cfg.ut cfg.sl en = some (x, y, w) := by
        unfold Spec.primary
        rw [show Spec.stored cfg.sym cfg.ut cfg.sl en = (x, y, w) :: more from h]; rfl
      simp only [h', List.map_cons, maxOf_cons, hu]
      constructor <;> omega

/-- The threads' stores, when thread `i` handles the entries `gs[i]`. -/
def actsThreads (cfg : Cfg) (b : Bool) : Nat → List (List (Nat × Nat × W)) → List (List (Act W))
  | _, [] => []
  | p, g :: gs => actsOf cfg b p g :: actsThreads cfg b (p + total cfg g) gs

theorem actsThreads_flatten (cfg : Cfg) (b : Bool) (p : Nat) (gs : List (List (Nat × Nat × W))) :
    (actsThreads cfg b p gs).flatten = actsOf cfg b p gs.flatten := by
  induction gs generalizing p with
  | nil => rfl
  | cons g gs ih => simp [actsThreads, ih, actsOf_append]

theorem actsThreads_eq_map (cfg : Cfg) (b : Bool) (f : Nat → List (Nat × Nat × W)) :
    ∀ (k p a : Nat), actsThreads cfg b p ((List.range' a k).map f) =
      (List.range' a k).map (fun t => actsOf cfg b (p + total cfg (((List.range' a (t - a)).map f).flatten)) (f t))
  | 0, _, _ => rfl
  | k+1, p, a => by
    rw [List.range'_succ, List.map_cons, actsThreads, actsThreads_eq_map cfg b f k, List.map_cons]
    congr 1
    · rw [Nat.sub_self]; rfl
    · apply List.map_congr_left
      intro t ht
      rw [List.mem_range'] at ht
      obtain ⟨i, hi, rfl⟩ := ht
      congr 1
      rw [show a + 1 + 1 * i - (a+1) = i by omega, show a + 1 + 1 * i - a = i + 1 by omega,
        List.range'_succ, List.map_cons, List.flatten_cons, total_append]
      omega

theorem total_range (cfg : Cfg) (seg : Nat → List (Nat × Nat × W)) (k : Nat) :
    ((List.range k).map (fun tid => total cfg (seg tid))).sum = total cfg (((List.range k).map seg).flatten) := by
  induction k with
  | zero => simp
  | succ k ih =>
    rw [List.range_succ, List.map_append, List.sum_append, ih]
    simp [total_append]

theorem flatten_filterMap {α β : Type} (f : α → Option β) (l : List (List α)) :
    (l.map (List.filterMap f)).flatten = l.flatten.filterMap f := by
  induction l with
  | nil => rfl
  | cons a l ih =>
    rw [List.map_cons, List.flatten_cons, List.flatten_cons, List.filterMap_append, ih]

/-- The plan of `read_el_` on a file of lines that are blank or carry an entry. -/
theorem readElPlan_eq {μ : Mapping} {e lw ow : Nat} {ls : List (List Byte)} {tail : List Byte} {wk : WKind W}
    {ent : List Byte → Option (Nat × Nat × W)} (cfg : Cfg) {T : Nat} (hT : 0 < T)
    (st : ElState μ e ls tail) (hls : ∀ l ∈ ls, EntOk lw wk ent l)
    (hd : WTrivial wk ∨ ∀ en ∈ ls.filterMap ent, storedC cfg en ≠ []) :
    ∃ gs : List (List (Nat × Nat × W)), gs.flatten = ls.filterMap ent ∧ gs.length = T ∧
      readElPlan μ lw ow cfg wk T (rd e (text ls ++ tail)) = .ok
        { m := total cfg (ls.filterMap ent) % 2 ^ ow
          threads := actsThreads cfg wk.wgt 0 gs
          mr := Spec.maxOf ((prims cfg (ls.filterMap ent)).map (·.1))
          mc := Spec.maxOf ((prims cfg (ls.filterMap ent)).map (·.2.1)) } := by
  let seg := fun tid => (segLines (text ls ++ tail) ls T tid).filterMap ent
  have hsegmem : ∀ tid, ∀ l ∈ segLines (text ls ++ tail) ls T tid, l ∈ ls :=
    fun tid l hl => List.mem_of_mem_drop (List.mem_of_mem_take hl)
  have hseg : ((List.range T).map seg).flatten = ls.filterMap ent := by
    have : (List.range T).map seg =
        ((List.range T).map (segLines (text ls ++ tail) ls T)).map (List.filterMap ent) := by
      rw [List.map_map]; rfl
    rw [this, flatten_filterMap, seg_all ls tail st.nonl T hT]
  have hsegok : ∀ tid, ∀ l ∈ segLines (text ls ++ tail) ls T tid, EntOk lw wk ent l :=
    fun tid l hl => hls l (hsegmem tid l hl)
  have hsegd : ∀ tid, WTrivial wk ∨ ∀ en ∈ seg tid, storedC cfg en ≠ [] := by
    intro tid
    refine hd.imp id (fun hd en hen => hd en ?_)
    obtain ⟨l, hl, he⟩ := List.mem_filterMap.mp hen
    exact List.mem_filterMap.mpr ⟨l, hsegmem tid l hl, he⟩
  refine ⟨(List.range T).map seg, hseg, by simp, ?_⟩
  have hreg : mapE (elRegion μ (rd e (text ls ++ tail)) T) (List.range T) =
      .ok ((List.range T).map (fun tid => rd (endOf e ls tail T tid) (regionOf ls tail T tid))) :=
    mapE_ok _ _ _ (fun tid ht => (elRegion_eq st (List.mem_range.mp ht)).1)
  have hcount : mapE (elCount μ lw cfg wk) ((List.range T).map (fun tid => rd (endOf e ls tail T tid) (regionOf ls tail T tid))) =
      .ok ((List.range T).map (fun tid => total cfg (seg tid))) := by
    have hmm : ∀ (l : List Nat) (f : Nat → Reader) (h : Reader → M Nat) (k : Nat → Nat),
        (∀ a ∈ l, h (f a) = .ok (k a)) → mapE h (l.map f) = .ok (l.map k) := by
      intro l f h k hh
      induction l with
      | nil => rfl
      | cons a l ih =>
        rw [List.map_cons, mapE, hh a (List.mem_cons_self ..), ok_bind,
          ih (fun b hb => hh b (List.mem_cons_of_mem _ hb))]; rfl
    apply hmm
    intro tid ht
    obtain ⟨_, v, r⟩ := elRegion_eq st (List.mem_range.mp ht)
    rw [elCount, v.sub]
    have := count_region (g := garb (text (ls.drop (lineOf (text ls ++ tail) T (tid+1))) ++ tail)) cfg r
      (garb_spec _).2 _ _ 0 (hsegok tid) (hsegd tid) v (region_length (g := garb (text (ls.drop (lineOf (text ls ++ tail) T (tid+1))) ++ tail)) _ (hsegok tid))
    unfold regionOf at *
    rw [this]; simp [seg]
  unfold readElPlan
  rw [hreg, ok_bind, hcount, ok_bind]
  have hset : mapE (elSet μ lw cfg wk (prefixSums 0 ((List.range T).map (fun tid => total cfg (seg tid))))) ((List.range T).zip
        ((List.range T).map (fun tid => rd (endOf e ls tail T tid) (regionOf ls tail T tid)))) =
      .ok ((List.range T).map (fun tid => (seg tid).foldl (setLine cfg wk.wgt)
        ({ pos := total cfg (((List.range tid).map seg).flatten) } : SetSt W))) := by
    rw [zip_map_self]
    have hmm : ∀ (l : List Nat) (f : Nat → Nat × Reader) (h : Nat × Reader → M (SetSt W)) (k : Nat → SetSt W),
        (∀ a ∈ l, h (f a) = .ok (k a)) → mapE h (l.map f) = .ok (l.map k) := by
      intro l f h k hh
      induction l with
      | nil => rfl
      | cons a l ih =>
        rw [List.map_cons, mapE, hh a (List.mem_cons_self ..), ok_bind,
          ih (fun b hb => hh b (List.mem_cons_of_mem _ hb))]; rfl
    apply hmm
    intro tid ht
    have htT := List.mem_range.mp ht
    obtain ⟨_, v, r⟩ := elRegion_eq st htT
    rw [elSet]
    simp only
    rw [v.sub]
    have hstart : startOf (prefixSums 0 ((List.range T).map (fun tid => total cfg (seg tid)))) tid =
        total cfg (((List.range tid).map seg).flatten) := by
      rw [startOf_eq _ _ (by simp; omega), ← List.map_take, List.take_range, Nat.min_eq_left (by omega)]
      exact total_range cfg seg tid
    rw [hstart]
    have := set_region (g := garb (text (ls.drop (lineOf (text ls ++ tail) T (tid+1))) ++ tail)) cfg r
      (garb_spec _).2 _ _ ({ pos := total cfg (((List.range tid).map seg).flatten) } : SetSt W)
      (hsegok tid) (hsegd tid) v (region_length (g := garb (text (ls.drop (lineOf (text ls ++ tail) T (tid+1))) ++ tail)) _ (hsegok tid))
    unfold regionOf at *
    rw [this]; rfl
  rw [hset, ok_bind]
  unfold elPlan
  congr 1
  have hmax : ∀ (f : SetSt W → Nat) (k : Nat × Nat × W → Nat),
      (∀ es (st : SetSt W), f st = 0 → f (es.foldl (setLine cfg wk.wgt) st) = Spec.maxOf ((prims cfg es).map k)) →
      (∀ n, f { pos := n } = 0) →
      ((List.range T).map (fun tid => (seg tid).foldl (setLine cfg wk.wgt)
        ({ pos := total cfg (((List.range tid).map seg).flatten) } : SetSt W))).foldl (fun a s => max a (f s)) 0 =
      Spec.maxOf ((prims cfg (ls.filterMap ent)).map k) := by
    intro f k hf h0
    rw [← hseg]
    generalize T = N
    clear hset hcount hreg hseg hsegmem hsegok hsegd
    induction N with
    | zero => simp [prims, Spec.maxOf]
    | succ N ih =>
      rw [List.range_succ, List.map_append, List.foldl_append, ih, List.map_append, List.flatten_append]
      simp only [List.map_cons, List.map_nil, List.foldl_cons, List.foldl_nil, List.flatten_cons,
        List.flatten_nil, List.append_nil]
      rw [hf _ _ (h0 _)]
      unfold prims
      rw [List.filterMap_append, List.map_append, maxOf_append]
  congr 1
  · rw [prefixSums_getD _ _ _ (by simp; omega)]
    rw [show T - 1 + 1 = T by omega, List.take_of_length_le (by simp), ← hseg]
    rw [total_range, Nat.zero_add]
  · rw [List.map_map]
    have := actsThreads_eq_map cfg wk.wgt seg T 0 0
    rw [← List.range_eq_range'] at this
    rw [this]
    apply List.map_congr_left
    intro t _
    simp only [Function.comp_apply, foldl_setLine_acts, List.nil_append, Nat.sub_zero, Nat.zero_add,
      ← List.range_eq_range']
  · exact hmax (·.mr) (·.1) (fun es st h => by simp [(foldl_setLine_max cfg wk.wgt es st).1, h]) (fun _ => rfl)
  · exact hmax (·.mc) (·.2.1) (fun es st h => by simp [(foldl_setLine_max cfg wk.wgt es st).2, h]) (fun _ => rfl)

end Pigo
