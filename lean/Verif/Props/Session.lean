import Verif.Lemmas.SessionRun

/-!
# C101: programs over the API

Every sequence of operations, of any length and with any number of threads for each operation, on COO, CSR, DiGraph and Matrix
objects: the result of the whole is what the operations do to the graph, one after the other.
-/

namespace Pigo.Session

variable {W : Type}

theorem computes_of [Inhabited W] {E : Types W} {ok : W → Prop} {k k' : Kind} {p : Prog k k'} {o : Obj W k} {s : Net W}
    (h : Spec.Is E.wk.wgt k o s) (hr : Spec.Ready E ok p s) (hcw : E.wk.wgt = true → ∀ w, ok w → E.cw.ok w)
    (hall : E.wk.wgt = false → ∀ w, ok w) (htext : Spec.Writes p → TextOk E ok) : Spec.Computes E p o s := by
  intro out ho
  obtain ⟨o', rfl, s', h1, h2⟩ := run_all (N := s.n) (ok := ok) ⟨hr.lb, hr.ob, hr.labels, hcw, hall, hr.wlt⟩ p h ⟨Nat.le_refl _, hr.ends, hr.weights⟩
    hr.ordinals hr.fine (fun g => ⟨htext g, hr.edges g⟩) hr.stor out ho
  exact ⟨o', s', rfl, h1, h2⟩

/-- C101 for objects without weights. -/
theorem C101_unweighted (E : Types Unit) (hwk : E.wk = wNone) (hwt : E.wt = wtNone) {k k' : Kind} (p : Prog k k') (o : Obj Unit k) (s : Net Unit)
    (h : Spec.Is false k o s) (hr : Spec.Ready E (fun _ => True) p s) : Spec.Computes E p o s := by
  have hw : E.wk.wgt = false := by rw [hwk]; rfl
  refine computes_of (by rw [hw]; exact h) hr (fun g => by rw [hw] at g; cases g) (fun _ _ => trivial) (fun _ => ?_)
  refine ⟨_, Pigo.Spec.entry0, _, _, by rw [hwt]; exact .none, by rw [hwk]; exact .none, by rw [hwt, hwk]; rfl, fun e _ => ⟨trivial, trivial, ?_, ?_⟩⟩
  · intro g
    rw [hw] at g; cases g
  · rw [hw]
    exact entry0_words e _

/-- C101 for unsigned weights of `ww` bits. -/
theorem C101_unsigned (E : Types Nat) (ww : Nat) (hwk : E.wk = wUint ww) (hwt : E.wt = wtUint) (hcw : ∀ w, w < 2 ^ ww → E.cw.ok w)
    {k k' : Kind} (p : Prog k k') (o : Obj Nat k) (s : Net Nat) (h : Spec.Is true k o s) (hr : Spec.Ready E (fun w => w < 2 ^ ww) p s) :
    Spec.Computes E p o s := by
  have hw : E.wk.wgt = true := by rw [hwk]; rfl
  refine computes_of (by rw [hw]; exact h) hr (fun _ => hcw) (fun g => by rw [hw] at g; cases g) (fun _ => ?_)
  refine ⟨_, Pigo.Spec.entryU, _, _, by rw [hwt]; exact .uint, by rw [hwk]; exact .uint ww, by rw [hwt, hwk]; rfl,
    fun e he => ⟨trivial, he, fun _ => showNat_word _, ?_⟩⟩
  rw [hw]
  exact entryU_words e

/-- C101 for signed weights of `ww` bits (without the smallest value, for which see C16). -/
theorem C101_signed (E : Types Int) (ww : Nat) (hwk : E.wk = wSint ww) (hwt : E.wt = wtInt ww) (hcw : ∀ w : Int, w.natAbs < 2 ^ (ww - 1) → E.cw.ok w)
    {k k' : Kind} (p : Prog k k') (o : Obj Int k) (s : Net Int) (h : Spec.Is true k o s)
    (hr : Spec.Ready E (fun w => w.natAbs < 2 ^ (ww - 1)) p s) : Spec.Computes E p o s := by
  have hw : E.wk.wgt = true := by rw [hwk]; rfl
  refine computes_of (by rw [hw]; exact h) hr (fun _ => hcw) (fun g => by rw [hw] at g; cases g) (fun _ => ?_)
  refine ⟨_, Pigo.Spec.entryS, _, _, by rw [hwt]; exact .sint ww, by rw [hwk]; exact .sint ww, by rw [hwt, hwk]; rfl,
    fun e he => ⟨he, he, fun _ => showInt_word _, ?_⟩⟩
  rw [hw]
  exact entryW_words e (showInt_word _) (parseSigned_showInt _)

/-- C101 for floating point weights: those whose text is a word that is read as the same value. -/
theorem C101_float {V : Type} [Inhabited V] (E : Types V) (ops : FpOps V) (txt : V → List Byte) (hwk : E.wk = wFp ops) (hwt : E.wt = wtFloat txt)
    {k k' : Kind} (p : Prog k k') (o : Obj V k) (s : Net V) (h : Spec.Is true k o s)
    (hr : Spec.Ready E (fun w => E.cw.ok w ∧ Word (txt w) ∧ (Pigo.Spec.parseLit (txt w)).map (evalLit ops) = some w) p s) :
    Spec.Computes E p o s := by
  have hw : E.wk.wgt = true := by rw [hwk]; rfl
  refine computes_of (by rw [hw]; exact h) hr (fun _ _ hv => hv.1) (fun g => by rw [hw] at g; cases g) (fun _ => ?_)
  refine ⟨txt, Pigo.Spec.entryF (evalLit ops), fun _ => True, fun _ => True, by rw [hwt]; exact .float txt, by rw [hwk]; exact .float ops,
    by rw [hwt, hwk]; rfl, fun e he => ⟨trivial, trivial, fun _ => he.2.1, ?_⟩⟩
  rw [hw]
  exact entryW_words e he.2.1 he.2.2

/-- C101 for weights of any type that the binary format keeps, in programs that write no text. -/
theorem C101_binary [Inhabited W] (E : Types W) {k k' : Kind} (p : Prog k k') (hp : ¬ Spec.Writes p) (o : Obj W k) (s : Net W)
    (h : Spec.Is E.wk.wgt k o s) (hr : Spec.Ready E (fun w => E.wk.wgt = true → E.cw.ok w) p s) : Spec.Computes E p o s :=
  computes_of h hr (fun hw w hv => hv hw) (fun hw w hv => by rw [hw] at hv; cases hv) (fun g => absurd g hp)

/-- Programs have executions (so that the theorems above say something). -/
theorem C101_runs [Inhabited W] (E : Types W) (hw : Pigo.Spec.StrictWeak E.wlt) {k k' : Kind} (p : Prog k k') (o : Obj W k) (hf : Spec.Fine p) :
    ∃ out, (p.run E o).Out out := run_any hw p o hf

/-! ## the result depends on nothing else -/

/-- All edges have a weight, or none. -/
def Uniform (wgt : Bool) (s : Net W) : Prop := ∀ e ∈ s.es, e.2.2.isSome = wgt

theorem same_uniform {wgt : Bool} {s s' : Net W} (h : Spec.Same s s') (hu : Uniform wgt s) : Uniform wgt s' :=
  fun e he => hu e (h.2.mem_iff.mp he)

theorem map_uniform {wgt : Bool} {n n' : Nat} {es : List (Nat × Nat × Option W)} {f : Nat × Nat × Option W → Nat × Nat × Option W} (hf : ∀ e, (f e).2.2 = e.2.2)
    (hu : Uniform wgt ⟨n, es⟩) : Uniform wgt ⟨n', es.map f⟩ := by
  intro e he
  obtain ⟨e', he', rfl⟩ := List.mem_map.mp he
  rw [hf]
  exact hu e' he'

theorem flag_uniform {wgt : Bool} (f : Flags) {s : Net W} (hu : Uniform wgt s) : Uniform wgt (flagNet f s) := by
  cases f with
  | none => exact hu
  | symmetric =>
    intro e he
    rcases List.mem_append.mp he with he | he
    · exact hu e he
    · exact map_uniform (n := s.n) (n' := s.n) (f := Spec.swap) (fun _ => rfl) hu e he
  | symmetricUpper => exact map_uniform (n := s.n) (f := Spec.order) (fun _ => rfl) hu

theorem distinct_same {wlt : W → W → Prop} (hw : ∀ a b, ¬ wlt a b → ¬ wlt b a → a = b) {wgt : Bool} {s t s' t' : Net W} (h : Spec.Same s t)
    (hu : Uniform wgt s) (hs : Spec.Distinct wlt s s') (ht : Spec.Distinct wlt t t') : Spec.Same s' t' := by
  have key : ∀ {a b a' b' : Net W}, Spec.Same a b → Uniform wgt a → Spec.Distinct wlt a a' → Spec.Distinct wlt b b' → ∀ e ∈ a'.es, e ∈ b'.es := by
    intro a b a' b' hab hua ha hb e he
    have hea := ha.some_of e he
    have heb := hab.2.mem_iff.mpr hea
    obtain ⟨e', he', hee⟩ := List.mem_map.mp (hb.all e heb)
    have heb' := hb.some_of e' he'
    have hea' := hab.2.mem_iff.mp heb'
    have hww : e.2.2 = e'.2.2 := by
      have h1 := hua e hea
      have h2 := hua e' hea'
      cases hx : e.2.2 with
      | none =>
        cases hy : e'.2.2 with
        | none => rfl
        | some w' => rw [hx] at h1; rw [hy] at h2; rw [← h1] at h2; cases h2
      | some w =>
        cases hy : e'.2.2 with
        | none => rw [hx] at h1; rw [hy] at h2; rw [← h1] at h2; cases h2
        | some w' =>
          rw [hw w w' (hb.smallest e' he' e heb hee.symm w w' hx hy) (ha.smallest e he e' hea' hee w' w hy hx)]
    have : e = e' := by
      obtain ⟨a1, a2, a3⟩ := e
      obtain ⟨b1, b2, b3⟩ := e'
      simp only [Spec.ends, Prod.mk.injEq] at hee
      simp only at hww
      rw [hee.1, hee.2, hww]
    rw [this]
    exact he'
  refine ⟨by rw [ht.n, hs.n, h.1], ?_⟩
  refine (List.perm_ext_iff_of_nodup (nodup_of_map ht.once) (nodup_of_map hs.once)).mpr (fun e => ⟨?_, ?_⟩)
  · exact key (same_symm h) (same_uniform h hu) ht hs e
  · exact key h hu hs ht e

theorem step_same {wlt : W → W → Prop} (hw : ∀ a b, ¬ wlt a b → ¬ wlt b a → a = b) {wgt : Bool} {k k' : Kind} (op : Op k k') {s t s' t' : Net W}
    (h : Spec.Same s t) (hu : Uniform wgt s) (hs : Spec.Step wlt op s s') (ht : Spec.Step wlt op t t') :
    Spec.Same s' t' ∧ Uniform wgt s' := by
  have key : ∀ {a b : Net W}, Spec.Same a s' → Spec.Same b t' → Spec.Same a b → Uniform wgt a → Spec.Same s' t' ∧ Uniform wgt s' :=
    fun h1 h2 h3 h4 => ⟨same_trans (same_symm h1) (same_trans h3 h2), same_uniform h1 h4⟩
  have hsw : Spec.Same ⟨s.n, s.es.map Spec.swap⟩ ⟨t.n, t.es.map Spec.swap⟩ := ⟨h.1, h.2.map _⟩
  have huw : Uniform wgt (⟨s.n, s.es.map Spec.swap⟩ : Net W) := map_uniform (n := s.n) (fun _ => rfl) hu
  cases op with
  | copy => exact key hs ht h hu
  | transpose => exact key hs ht hsw huw
  | toCsr => exact key hs ht h hu
  | toGraph => exact key hs ht h hu
  | toMatrix => exact key hs ht h hu
  | toCoo f =>
    refine key (a := flagNet f s) (b := flagNet f t) (by cases f <;> exact hs) (by cases f <;> exact ht) ?_ (flag_uniform f hu)
    cases f with
    | none => exact h
    | symmetric => exact ⟨h.1, h.2.append (h.2.map _)⟩
    | symmetricUpper => exact ⟨h.1, h.2.map _⟩
  | sort => exact key hs ht h hu
  | withoutDups => exact ⟨distinct_same hw h hu hs ht, fun e he => hu e (Spec.Distinct.some_of hs e he)⟩
  | outGraph => exact key hs ht h hu
  | inGraph => exact key hs ht hsw huw
  | csr => exact key hs ht h hu
  | csc => exact key hs ht hsw huw
  | saveCoo => exact key hs ht h hu
  | saveCsr => exact key hs ht h hu
  | saveGraph => exact key hs ht h hu
  | write =>
    refine key hs ht ⟨?_, h.2⟩ hu
    dsimp only
    rw [maxLabel_perm (h.2.map Spec.ends)]

theorem does_same {wlt : W → W → Prop} (hw : ∀ a b, ¬ wlt a b → ¬ wlt b a → a = b) {wgt : Bool} {k k' : Kind} {p p' : Prog k k'}
    (hp : Spec.SameOps p p') : ∀ {s t s' t' : Net W}, Spec.Same s t → Uniform wgt s → Spec.Does wlt p s s' → Spec.Does wlt p' t t' → Spec.Same s' t' := by
  induction hp with
  | done =>
    rintro s t s' t' h _ rfl rfl
    exact h
  | step T T' op _ ih =>
    rintro s t s' t' h hu ⟨s1, h1, h2⟩ ⟨t1, h3, h4⟩
    obtain ⟨h5, h6⟩ := step_same hw op h hu h1 h3
    exact ih h5 h6 h2 h4

theorem is_net {wgt : Bool} {k : Kind} {o : Obj W k} {s : Net W} (h : Spec.Is wgt k o s) : Spec.Same s (Spec.net wgt k o) := by
  cases k with
  | coo => exact ⟨Spec.CooIs.n h, Spec.CooIs.edges h⟩
  | csr => exact ⟨Spec.CsrIs.n h, Spec.CsrIs.edges h⟩
  | graph => exact ⟨Spec.CsrIs.n h.1, Spec.CsrIs.edges h.1⟩
  | matrix => exact ⟨Spec.CsrIs.n h.1, Spec.CsrIs.edges h.1⟩

theorem coo_uniform {wgt : Bool} {c : Coo W} {s : Net W} (h : Spec.CooIs wgt c s) : Uniform wgt s := by
  intro e he
  have := h.edges.mem_iff.mpr he
  obtain ⟨_, h2⟩ := List.of_mem_zip (a := e.1) (b := e.2) this
  obtain ⟨_, h3⟩ := List.of_mem_zip (a := e.2.1) (b := e.2.2) h2
  cases hw : wgt with
  | true =>
    rw [hw, if_pos rfl] at h3
    obtain ⟨w, _, h4⟩ := List.mem_map.mp h3
    rw [← h4]; rfl
  | false =>
    rw [hw, if_neg (by decide)] at h3
    rw [(List.mem_replicate.mp h3).2]; rfl

theorem csr_uniform {wgt : Bool} {c : Csr W} {s : Net W} (h : Spec.CsrIs wgt c s) : Uniform wgt s := by
  intro e he
  have := h.edges.mem_iff.mpr he
  cases hw : wgt with
  | true =>
    rw [hw, mem_edges_true] at this
    obtain ⟨_, _, _, _, rfl⟩ := this
    rfl
  | false =>
    rw [hw] at this
    rw [edges_none this]
    rfl

theorem is_uniform {wgt : Bool} {k : Kind} {o : Obj W k} {s : Net W} (h : Spec.Is wgt k o s) : Uniform wgt s := by
  cases k with
  | coo => exact coo_uniform h
  | csr => exact csr_uniform h
  | graph => exact csr_uniform h.1
  | matrix => exact csr_uniform h.1

/-- C101, independence: when weights that are not smaller than each other are equal, the graph at the end does not depend on the
numbers of threads, nor on the schedules, nor on the order of the edges at the start: two objects with the same graph, the same
operations with any threads, the same graph. -/
theorem C101_same_result (E : Types W) (hw : ∀ a b, ¬ E.wlt a b → ¬ E.wlt b a → a = b) {k k' : Kind} (p p' : Prog k k')
    (hp : Spec.SameOps p p') (o o' : Obj W k) (s : Net W) (h : Spec.Is E.wk.wgt k o s)
    (hc : Spec.Computes E p o s) (hc' : Spec.Computes E p' o' s) (out out' : M (Obj W k')) (ho : (p.run E o).Out out)
    (ho' : (p'.run E o').Out out') :
    ∃ r r', out = .ok r ∧ out' = .ok r' ∧ Spec.Same (Spec.net E.wk.wgt k' r) (Spec.net E.wk.wgt k' r') := by
  obtain ⟨r, s1, rfl, h1, h2⟩ := hc out ho
  obtain ⟨r', s2, rfl, h3, h4⟩ := hc' out' ho'
  have := does_same hw hp (same_refl s) (is_uniform h) h1 h3
  exact ⟨r, r', rfl, rfl, same_trans (same_symm (is_net h2)) (same_trans this (is_net h4))⟩

/-! ## from a file on -/

theorem load_file_is (E : Types Unit) (hwk : E.wk = wNone) (T : Nat) (hT : 0 < T) (μ : Mapping) (hpad : 0 < μ.pad) (fn : List Byte)
    (hf : Pigo.Spec.PlainEdgeFile μ.bytes fn) {N : Nat} {ok : Unit → Prop} (hE : TypesOk E N ok) (hs : Within N ok (Spec.fileNet μ.bytes))
    (hm : (Pigo.Spec.edges μ.bytes).length < 2 ^ (8 * E.ob)) (k : Kind) :
    (load (E.params T) k μ fn).All (fun o => Spec.Is E.wk.wgt k o (Spec.fileNet μ.bytes)) := by
  have hN := hE.N
  have hn := hs.n
  have hform : Format (E.params T).wk Pigo.Spec.entry0 (fun _ => True) := by
    show Format E.wk _ _
    rw [hwk]; exact .none
  have hw : E.wk.wgt = false := by rw [hwk]; rfl
  obtain ⟨ht, hc⟩ := readCoo_text (E.params T) hT hE.lb.1 μ hpad fn hf.magic hf.mtx hf.graph hform (fileOk_edges hf.ok) (fun _ _ => trivial)
    (by
      rw [entries_edges]
      intro e he
      obtain ⟨p, hp, rfl⟩ := List.mem_map.mp he
      have := le_maxLabel hp
      have hn : Pigo.Spec.maxLabel (Pigo.Spec.edges μ.bytes) + 1 ≤ N := hn
      show p.1 + 1 < 2 ^ (8 * E.lb) ∧ p.2 + 1 < 2 ^ (8 * E.lb)
      omega)
    (by rw [entries_edges, List.length_map]; exact hm)
  refine load_is hE hT hs (by rw [Spec.fileNet, List.length_map]; exact hm) ht (.inr (.inl rfl)) (hc.mono (fun c h => ?_)) k
  rw [entries_edges] at h
  have hv : ((Pigo.Spec.edges μ.bytes).map unw).map (view E.wk.wgt) = (Spec.fileNet μ.bytes).es := by
    rw [hw, Spec.fileNet, List.map_map]
    rfl
  refine cooIs_of h.holds ?_ (by rw [hv])
  rw [h.n, dims_ends (wgt := E.wk.wgt), hv, Spec.fileNet, List.map_map]
  congr 2
  exact List.map_id _

/-- C101 from a file on: an object of any class is built from a plain edge list file, then any program is run on it.  All that
happens is what the operations do to the graph in the file. -/
theorem C101_from_file (E : Types Unit) (hwk : E.wk = wNone) (hwt : E.wt = wtNone) (T : Nat) (hT : 0 < T) (μ : Mapping) (hpad : 0 < μ.pad)
    (fn : List Byte) (hf : Pigo.Spec.PlainEdgeFile μ.bytes fn) {k k' : Kind} (p : Prog k k') (hr : Spec.Ready E (fun _ => True) p (Spec.fileNet μ.bytes))
    (out : M (Obj Unit k')) (ho : (load (E.params T) k μ fn >>= fun o => p.run E o).Out out) :
    ∃ o' s', out = .ok o' ∧ Spec.Does E.wlt p (Spec.fileNet μ.bytes) s' ∧ Spec.Is false k' o' s' := by
  have hw : E.wk.wgt = false := by rw [hwk]; rfl
  have hE : TypesOk E (Spec.fileNet μ.bytes).n (fun _ => True) := ⟨hr.lb, hr.ob, hr.labels, (fun g => by rw [hw] at g; cases g), fun _ _ => trivial, hr.wlt⟩
  have hm : (Pigo.Spec.edges μ.bytes).length < 2 ^ (8 * E.ob) := by
    have h1 := hr.ordinals
    have h2 := le_peak p (Spec.fileNet μ.bytes).es.length
    have h3 : (Spec.fileNet μ.bytes).es.length = (Pigo.Spec.edges μ.bytes).length := List.length_map ..
    omega
  have hl := load_file_is E hwk T hT μ hpad fn hf hE ⟨Nat.le_refl _, hr.ends, hr.weights⟩ hm k
  obtain ⟨o', rfl, s', h1, h2⟩ := R.All.bind hl (P := fun o => Spec.Is E.wk.wgt k o (Spec.fileNet μ.bytes))
    (Q := fun o' => ∃ s', Spec.Does E.wlt p (Spec.fileNet μ.bytes) s' ∧ Spec.Is false k' o' s') (fun o h => by
      intro out ho
      rw [hw] at h
      obtain ⟨o', s', rfl, h1, h2⟩ := C101_unweighted E hwk hwt p o (Spec.fileNet μ.bytes) h hr out ho
      rw [hw] at h2
      exact ⟨o', rfl, s', h1, h2⟩) out ho
  exact ⟨o', s', rfl, h1, h2⟩

/-- The edges are needed: a program that begins by writing a COO without edges as text fails. -/
theorem C101_write_needs_edges (E : Types W) {k k' : Kind} (T : Nat) (fn : List Byte) (pad : Nat) (p : Prog k k') (c : Coo W) (h : c.m = 0)
    (out : M (Obj W k')) (ho : ((Prog.step T (.write k fn pad) p).run E c).Out out) : out = .error .error := by
  obtain ⟨o1, ⟨o2, ho2, hk⟩, hk2⟩ := ho
  cases C50_write_empty_violated T E.wt c h o2 ho2
  have hk : o1 = .error .error := hk
  subst hk
  exact hk2

/-! ## a program -/

/-- The program that builds a CSR, removes duplicates with three threads, makes a COO with both directions of each edge, writes it as text
with two threads, loads that as a Matrix with five, saves its CSC as binary and loads a DiGraph from it. -/
def exProg : Prog .coo .graph :=
  .step 4 .toCsr (.step 3 .withoutDups (.step 1 (.toCoo .symmetric) (.step 2 (.write .matrix (str "a.txt") 1)
    (.step 5 .csc (.step 2 (.saveCsr .graph (str "a.bin") 0) .done)))))

/-- 32-bit labels, 64-bit ordinals, 64-bit signed weights, arrays behind raw pointers. -/
def exTypes : Types Int :=
  { lb := 4, ob := 8, wk := wSint 64, cw := codecInt 8 (by omega), stor := .pointer, wt := wtInt 64, wlt := fun a b => a < b }

/-- The graph of `exCoo`: `2 → 1` and `0 → 3` twice. -/
def exNet : Net Int := ⟨4, [(2, 1, some 5), (0, 3, some (-1)), (2, 0, some 7), (1, 1, some 0), (0, 3, some 2), (2, 1, some 4)]⟩

theorem exNet_is : Spec.Is true .coo exCoo exNet := ⟨by decide, by decide, by decide, by decide, by decide⟩

theorem exReady : Spec.Ready exTypes (fun w => w.natAbs < 2 ^ (64 - 1)) exProg exNet :=
  ⟨by decide, by decide, intLt_strictWeak, by decide, by decide, by decide,
    ⟨by decide, by decide, by decide, by decide, ⟨by decide, by decide⟩, by decide, by decide, by decide, trivial⟩,
    by
      intro e he w hw
      simp only [exNet, List.mem_cons, List.not_mem_nil, or_false] at he
      rcases he with rfl | rfl | rfl | rfl | rfl | rfl <;> (cases hw; decide),
    fun _ => by decide, fun _ _ => by decide⟩

/-- All the theorem says of the program: the DiGraph has the reverse of both directions of the four distinct edges, each with
the smallest weight. -/
theorem C101_example (out : M (DiGraph Int)) (ho : (exProg.run exTypes exCoo).Out out) :
    ∃ g, out = .ok g ∧ g.outG.n = 4 ∧
      (Spec.csrEdges true g.outG).Perm [(2, 1, some 4), (0, 3, some (-1)), (2, 0, some 7), (1, 1, some 0), (1, 2, some 4), (3, 0, some (-1)),
        (0, 2, some 7), (1, 1, some 0)] ∧ ∃ out', (exProg.run exTypes exCoo).Out out' := by
  obtain ⟨g, s', rfl, hd, hi⟩ := C101_signed exTypes 64 rfl rfl (fun w h => by
    simp only [exTypes, codecInt]
    constructor <;> omega) exProg exCoo exNet exNet_is exReady out ho
  obtain ⟨s1, h1, s2, h2, s3, h3, s4, h4, s5, h5, s6, h6, rfl⟩ := hd
  have hu : Uniform true exNet := is_uniform (k := .coo) exNet_is
  -- the graph without duplicates is determined
  have hdist : Spec.Distinct exTypes.wlt exNet ⟨4, [(2, 1, some 4), (0, 3, some (-1)), (2, 0, some 7), (1, 1, some 0)]⟩ := by
    refine ⟨rfl, by decide, by decide, by decide, ?_⟩
    intro e' he' e he hee w w' hw hw'
    simp only [exNet, List.mem_cons, List.not_mem_nil, or_false] at he he'
    rcases he' with rfl | rfl | rfl | rfl <;> rcases he with rfl | rfl | rfl | rfl | rfl | rfl <;>
      first
        | (exfalso; revert hee; decide)
        | (cases hw; cases hw'; simp only [exTypes]; decide)
  have a2 := distinct_same (fun a b (x : ¬ a < b) (y : ¬ b < a) => by omega) (same_symm h1) (same_uniform h1 hu) h2 hdist
  have a3 := step_same (wlt := exTypes.wlt) (fun a b (x : ¬ a < b) (y : ¬ b < a) => by omega) (.toCoo .symmetric) (same_symm a2)
    (fun e he => hu e (hdist.some_of e he)) (same_refl _) h3
  have a4 := step_same (wlt := exTypes.wlt) (fun a b (x : ¬ a < b) (y : ¬ b < a) => by omega) (.write .matrix (str "a.txt") 1) a3.1 a3.2
    (same_refl _) h4
  have a5 := step_same (wlt := exTypes.wlt) (fun a b (x : ¬ a < b) (y : ¬ b < a) => by omega) .csc a4.1 a4.2 (same_refl _) h5
  have a6 := same_trans a5.1 h6
  have a7 := same_trans a6 (is_net hi)
  refine ⟨g, rfl, a7.1.trans ?_, a7.2.trans ?_, C101_runs exTypes intLt_strictWeak exProg exCoo exReady.fine⟩
  · decide
  · decide

/-- `exProg` with other numbers of threads. -/
def exProg' : Prog .coo .graph :=
  .step 1 .toCsr (.step 1 .withoutDups (.step 8 (.toCoo .symmetric) (.step 1 (.write .matrix (str "a.txt") 1)
    (.step 1 .csc (.step 7 (.saveCsr .graph (str "a.bin") 0) .done)))))

/-- The same operations with other numbers of threads give the same graph. -/
example (out out' : M (DiGraph Int)) (ho : (exProg.run exTypes exCoo).Out out) (ho' : (exProg'.run exTypes exCoo).Out out') :
    ∃ g g', out = .ok g ∧ out' = .ok g' ∧ Spec.Same (Spec.net true .graph g) (Spec.net true .graph g') := by
  have hcw : ∀ w : Int, w.natAbs < 2 ^ (64 - 1) → exTypes.cw.ok w := fun w h => by
    simp only [exTypes, codecInt]
    constructor <;> omega
  have hr := exReady
  refine C101_same_result exTypes (fun a b (x : ¬ a < b) (y : ¬ b < a) => by omega) exProg exProg'
    (.step _ _ _ (.step _ _ _ (.step _ _ _ (.step _ _ _ (.step _ _ _ (.step _ _ _ .done)))))) exCoo exCoo exNet exNet_is
    (C101_signed exTypes 64 rfl rfl hcw exProg exCoo exNet exNet_is hr)
    (C101_signed exTypes 64 rfl rfl hcw exProg' exCoo exNet exNet_is ⟨hr.lb, hr.ob, hr.wlt, hr.ends, hr.labels, hr.ordinals,
      ⟨by decide, by decide, by decide, by decide, ⟨by decide, by decide⟩, by decide, by decide, by decide, trivial⟩, hr.weights, hr.edges, hr.stor⟩)
    out out' ho ho'

/-- Without weights, arrays in `std::vector`. -/
def exTypes0 : Types Unit :=
  { lb := 4, ob := 4, wk := wNone, cw := ⟨1, fun _ => [0], fun _ => (), fun _ => True, by omega, fun _ => rfl, fun _ _ => rfl⟩, stor := .vector,
    wt := wtNone, wlt := fun _ _ => False }

/-- The reverse graph of a DiGraph, sorted, written as text and loaded as a Matrix. -/
def exProg0 : Prog .graph .matrix :=
  .step 2 .inGraph (.step 1 .sort (.step 4 (.toCoo .none) (.step 3 (.write .matrix (str "b.el") 2) .done)))

/-- From the file `exFile`, which has a comment, a loop and text after the edges. -/
example (out : M (Matrix Unit)) (ho : (load (exTypes0.params 3) .graph exFile (str "g.el") >>= fun o => exProg0.run exTypes0 o).Out out) :
    ∃ a, out = .ok a ∧ a.csr.n = 6 ∧ (Spec.csrEdges false a.csr).Perm [(2, 1, none), (4, 3, none), (5, 5, none), (1, 2, none)] := by
  have he : Spec.fileNet exFile.bytes = ⟨6, [(1, 2, none), (3, 4, none), (5, 5, none), (2, 1, none)]⟩ := by
    rw [Spec.fileNet, exFile_edges]; rfl
  obtain ⟨a, s', rfl, hd, hi⟩ := C101_from_file exTypes0 rfl rfl 3 (by decide) exFile (by decide) (str "g.el")
    ⟨exFile_ok, by decide, by decide, by decide⟩ exProg0 (by
      rw [he]
      exact ⟨by decide, by decide, false_strictWeak, by decide, by decide, by decide,
        ⟨by decide, by decide, by decide, by decide, ⟨by decide, by decide⟩, by decide, trivial⟩, fun _ _ _ _ => trivial, fun _ => by decide,
        fun _ h => by cases h⟩) out ho
  rw [he] at hd
  obtain ⟨s1, h1, s2, h2, s3, h3, s4, h4, rfl⟩ := hd
  have hs := same_trans h1 (same_trans h2 h3)
  refine ⟨a, rfl, ?_, ?_⟩
  · refine (hi.1.n.trans h4.1).trans ?_
    dsimp only
    rw [maxLabel_perm (hs.2.map Spec.ends)]
    decide
  · exact (hi.1.edges.trans h4.2).trans hs.2

/-- `C101_unsigned` and `C101_binary` apply to a program that saves a COO and loads a Matrix. -/
example : ∃ (E : Types Nat) (p : Prog .coo .matrix) (o : Coo Nat) (s : Net Nat), E.wk = wUint 8 ∧ E.wt = wtUint ∧ (∀ w, w < 2 ^ 8 → E.cw.ok w) ∧
    Spec.Is true .coo o s ∧ ¬ Spec.Writes p ∧ Spec.Ready E (fun w => w < 2 ^ 8) p s ∧ s.es.length = 3 := by
  refine ⟨{ lb := 1, ob := 1, wk := wUint 8, cw := codecNat 1 (by omega), stor := .vector, wt := wtUint, wlt := fun a b => a < b },
    .step 2 (.saveCoo .matrix [] 5) .done,
    ⟨[0, 5, 5], [200, 1, 1], [7, 255, 9], 201, 3, 6, 201⟩, ⟨201, [(0, 200, some 7), (5, 1, some 255), (5, 1, some 9)]⟩, rfl, rfl, ?_, ?_, ?_, ?_, rfl⟩
  · intro w hw
    exact hw
  · exact ⟨by decide, by decide, by decide, by decide, by decide⟩
  · exact fun h => h
  · exact ⟨by decide, by decide, natLt_strictWeak, by decide, by decide, by decide, ⟨by decide, trivial⟩,
      by
        intro e he w hw
        simp only [List.mem_cons, List.not_mem_nil, or_false] at he
        rcases he with rfl | rfl | rfl <;> (cases hw; decide),
      (fun h => h.elim), fun h => h.elim⟩

end Pigo.Session
