import Verif.Model.Fail
import Verif.Lemmas.ThrowPost
import Verif.Props.Throw

/-!
# The loaders with failing allocations, compared with those of `Model/Throw`
-/

namespace Pigo

open Spec

variable {α β γ W : Type}

/-- `p` ends exactly as `q`, with the same blocks. -/
def Sim (p : FR α) (q : TR α) : Prop := ∀ z L, p z L ↔ ∃ o, z = .out o ∧ q o L

/-- Every way `p` ends is one of `q`, or an exception, or, with OpenMP, the end of the process. -/
def FailRel (E : Env) (p : FR α) (q : TR α) : Prop := ∀ z L, p z L →
  (∃ o L', z = .out o ∧ q o L') ∨ (E.short = true ∧ (z = .out (.error .error) ∨ (z = .ended ∧ E.omp = true)))

structure Tracks (E : Env) (p : FR α) (q : TR α) : Prop where
  sim : E.short = false → Sim p q
  rel : FailRel E p q

variable {E : Env}

theorem Tracks.using {p : FR α} {q : TR α} {left : α → M β → List Blk → List Blk} {k : α → FR β} {k' : α → TR β} (h : Tracks E p q)
    (hk : ∀ a, Tracks E (k a) (k' a)) : Tracks E (FR.using p left k) (TR.using q left k') := by
  constructor
  · intro hs z L
    constructor
    · rintro ⟨z1, L1, hp, hz⟩
      obtain ⟨o, rfl, hq⟩ := (h.sim hs _ _).mp hp
      cases o with
      | error f =>
        obtain ⟨rfl, rfl⟩ := hz
        exact ⟨_, rfl, _, _, hq, rfl, rfl⟩
      | ok a =>
        obtain ⟨L2, h2, rfl⟩ := hz
        obtain ⟨o2, rfl, hq2⟩ := ((hk a).sim hs _ _).mp h2
        exact ⟨_, rfl, _, _, hq, L2, hq2, rfl⟩
    · rintro ⟨o, rfl, o1, L1, hq, hz⟩
      refine ⟨.out o1, L1, (h.sim hs _ _).mpr ⟨_, rfl, hq⟩, ?_⟩
      cases o1 with
      | error f => exact ⟨by rw [hz.1], hz.2⟩
      | ok a =>
        obtain ⟨L2, h2, rfl⟩ := hz
        exact ⟨L2, ((hk a).sim hs _ _).mpr ⟨_, rfl, h2⟩, rfl⟩
  · rintro z L ⟨z1, L1, hp, hz⟩
    cases z1 with
    | ended =>
      rcases h.rel _ _ hp with ⟨o, _, ho, _⟩ | ⟨hs, hr | ⟨_, hr⟩⟩
      · cases ho
      · cases hr
      · rw [hz.1]; exact .inr ⟨hs, .inr ⟨rfl, hr⟩⟩
    | out o1 =>
      cases o1 with
      | error f =>
        rw [hz.1]
        rcases h.rel _ _ hp with ⟨o, L', ho, hq⟩ | ⟨hs, hr | ⟨hr, _⟩⟩
        · cases ho
          exact .inl ⟨_, _, rfl, _, _, hq, rfl, rfl⟩
        · cases hr; exact .inr ⟨hs, .inl rfl⟩
        · cases hr
      | ok a =>
        obtain ⟨L2, h2, rfl⟩ := hz
        rcases h.rel _ _ hp with ⟨o, L', ho, hq⟩ | ⟨_, hr | ⟨hr, _⟩⟩
        · cases ho
          rcases (hk a).rel _ _ h2 with ⟨o2, L'', rfl, hq2⟩ | hr
          · exact .inl ⟨_, _, rfl, _, _, hq, _, hq2, rfl⟩
          · exact .inr hr
        · cases hr
        · cases hr

theorem Tracks.bind {p : FR α} {q : TR α} {k : α → FR β} {k' : α → TR β} (h : Tracks E p q) (hk : ∀ a, Tracks E (k a) (k' a)) :
    Tracks E (p >>= k) (q >>= k') := Tracks.using h hk

theorem Tracks.run (p : R α) : Tracks E (FR.run p) (TR.run p) :=
  ⟨fun _ z L => ⟨fun ⟨o, h1, h2, h3⟩ => ⟨o, h1, h2, h3⟩, fun ⟨o, h1, h2, h3⟩ => ⟨o, h1, h2, h3⟩⟩,
    fun _ _ ⟨o, h1, h2, h3⟩ => .inl ⟨o, _, h1, h2, h3⟩⟩

theorem Tracks.pure (a : α) : Tracks E (Pure.pure a : FR α) (Pure.pure a : TR α) := Tracks.run _

theorem Tracks.brun (p : R α) {k : α → FR β} {k' : α → TR β} (hk : ∀ a, Tracks E (k a) (k' a)) :
    Tracks E (FR.run p >>= k) (TR.run p >>= k') := .bind (.run p) hk

theorem Tracks.alloc (bs : List Blk) : Tracks E (FR.alloc E bs) (TR.alloc bs) := by
  constructor
  · intro hs z L
    constructor
    · rintro (⟨rfl, rfl⟩ | ⟨h, _⟩)
      · exact ⟨_, rfl, rfl, rfl⟩
      · rw [hs] at h; cases h
    · rintro ⟨o, rfl, rfl, rfl⟩
      exact .inl ⟨rfl, rfl⟩
  · rintro z L (⟨rfl, rfl⟩ | ⟨hs, k, _, rfl, rfl⟩)
    · exact .inl ⟨_, _, rfl, rfl, rfl⟩
    · exact .inr ⟨hs, .inl rfl⟩

theorem Tracks.balloc (bs : List Blk) {k : Unit → FR β} {k' : Unit → TR β} (hk : Tracks E (k ()) (k' ())) :
    Tracks E (FR.alloc E bs >>= k) (TR.alloc bs >>= k') := .bind (.alloc bs) fun ⟨⟩ => hk

/-- A vector of the function leaves no trace. -/
theorem Tracks.vec {k : Unit → FR β} {q : TR β} (h : Tracks E (k ()) q) : Tracks E (FR.vec E >>= k) q := by
  constructor
  · intro hs z L
    rw [← h.sim hs z L]
    constructor
    · rintro ⟨z1, L1, ⟨rfl, (rfl | ⟨hs', _⟩)⟩, hz⟩
      · obtain ⟨L2, h2, rfl⟩ := hz
        obtain ⟨o, rfl, _⟩ := (h.sim hs _ _).mp h2
        cases o <;> simpa [keep, unwind] using h2
      · rw [hs] at hs'; cases hs'
    · intro hz
      obtain ⟨o, rfl, _⟩ := (h.sim hs _ _).mp hz
      exact ⟨.out (.ok ()), [], ⟨rfl, .inl rfl⟩, L, hz, by cases o <;> simp [keep, unwind]⟩
  · rintro z L ⟨z1, L1, ⟨rfl, (rfl | ⟨hs', rfl⟩)⟩, hz⟩
    · obtain ⟨L2, h2, rfl⟩ := hz
      exact h.rel _ _ h2
    · rw [hz.1]; exact .inr ⟨hs', .inl rfl⟩

/-- A region in which nothing throws unless memory runs out. -/
theorem Tracks.region {p : FR α} {q : TR α} (h : Tracks E p q) (hq : q.Post (fun _ => False) (fun _ _ => True)) :
    Tracks E (FR.region E p) q := by
  have calm : ∀ o L, q o L → ¬ (o = .error .error ∨ o = .error .nyi) := by
    rintro o L ho (rfl | rfl)
    · exact (hq _ _ ho).1 _ rfl (.inl rfl)
    · exact (hq _ _ ho).1 _ rfl (.inr rfl)
  constructor
  · intro hs z L
    constructor
    · rintro ⟨z', L', hp, ⟨⟨_, ht⟩, _⟩ | ⟨_, rfl, rfl⟩⟩
      · obtain ⟨o, rfl, ho⟩ := (h.sim hs _ _).mp hp
        exact absurd (by simpa using ht) (calm o _ ho)
      · exact (h.sim hs _ _).mp hp
    · rintro ⟨o, rfl, ho⟩
      refine ⟨_, _, (h.sim hs _ _).mpr ⟨o, rfl, ho⟩, .inr ⟨?_, rfl, rfl⟩⟩
      rintro ⟨_, ht⟩
      exact calm o _ ho (by simpa using ht)
  · rintro z L ⟨z', L', hp, ⟨⟨hom, ht⟩, rfl, rfl⟩ | ⟨_, rfl, rfl⟩⟩
    · rcases h.rel _ _ hp with ⟨o, L'', rfl, ho⟩ | ⟨hs, _⟩
      · exact absurd (by simpa using ht) (calm o _ ho)
      · exact .inr ⟨hs, .inr ⟨rfl, hom⟩⟩
    · exact h.rel _ _ hp

/-! ### Nothing in the passes throws -/

/-- Neither reading nor counting a weight throws. -/
structure WKind.Silent (wk : WKind W) : Prop where
  read : wk.Calm
  count : ∀ μ r, Pigo.Calm (wk.count μ r)

theorem Calm.countEntryN (μ : Mapping) (lw : Nat) (cfg : Cfg) {wk : WKind W} (hw : wk.Silent) (n pos : Nat) (r : Reader) :
    Calm (countEntryN μ lw cfg wk n pos r) := by
  induction n generalizing pos r with
  | zero => exact .err calm_fuel
  | succ n ih =>
    unfold Pigo.countEntryN
    refine .bind (OobOnly.readInt ..).calm fun _ => .bind (OobOnly.moveToNextInt ..).calm fun _ =>
      .bind (OobOnly.readInt ..).calm fun _ => .bind (hw.count ..) fun q => ?_
    split
    · exact .ok _
    · refine .bind (.moveToEol ..) fun _ => .bind (OobOnly.moveToNextInt ..).calm fun _ => ?_
      split
      · exact ih _ _
      · split
        · exact ih _ _
        · exact .ok _

theorem Calm.elCount (μ : Mapping) (lw : Nat) (cfg : Cfg) {wk : WKind W} (hw : wk.Silent) (rs : Reader) : Calm (elCount μ lw cfg wk rs) := by
  unfold Pigo.elCount
  refine .bind (.whileGood (fun s r => ?_) ..) fun _ => .ok _
  unfold Pigo.countEntry
  split
  · unfold countEntryPlain
    refine .bind (OobOnly.moveToNextInt ..).calm fun _ => ?_
    split
    · exact .ok _
    · exact .bind (.moveToEol ..) fun _ => .bind (OobOnly.moveToNextInt ..).calm fun _ => .ok _
  · exact .countEntryN μ lw cfg hw ..

theorem Calm.skipSpacesN (μ : Mapping) (n : Nat) (r : Reader) : Calm (skipSpacesN μ n r) := by
  induction n generalizing r with
  | zero => exact .err calm_fuel
  | succ n ih =>
    unfold Pigo.skipSpacesN
    refine .bind (OobOnly.get ..).calm fun _ => ?_
    split
    · exact ih _
    · exact .ok _

theorem Calm.countSpacesN (μ : Mapping) (n ct : Nat) (r : Reader) : Calm (countSpacesN μ n ct r) := by
  induction n generalizing ct r with
  | zero =>
    unfold Pigo.countSpacesN
    split
    · exact .err calm_fuel
    · exact .ok _
  | succ n ih =>
    unfold Pigo.countSpacesN
    split
    · refine .bind (OobOnly.get ..).calm fun _ => ?_
      split
      · exact .ok _
      · refine .bind (OobOnly.scan ..).calm fun _ => .bind (OobOnly.get ..).calm fun _ => ?_
        split
        · exact .bind (.moveToEol ..) fun _ => .ok _
        · refine .bind (OobOnly.scan ..).calm fun _ => .bind (OobOnly.get ..).calm fun _ => ?_
          split
          · exact .ok _
          · split
            · exact .bind (.moveToEol ..) fun _ => .ok _
            · refine .bind (.skipSpacesN ..) fun _ => .bind (OobOnly.get ..).calm fun _ => ?_
              split
              · exact .ok _
              · split
                · exact .bind (.moveToEol ..) fun _ => .ok _
                · exact ih _ _
    · exact .ok _

theorem Calm.skipCoords (μ : Mapping) (lw : Nat) (wk : WKind W) (k : Nat) (r : Reader) : Calm (skipCoords μ lw wk k r) := by
  induction k generalizing r with
  | zero => exact .ok _
  | succ k ih =>
    unfold Pigo.skipCoords
    have hj : ∀ r : Reader, Calm (if (!r.good) = true then (.ok (false, r) : M (Bool × Reader)) else Pigo.skipCoords μ lw wk k r) := by
      intro r
      split
      · exact .ok _
      · exact ih _
    dsimp only
    split
    · exact .bind (OobOnly.moveToNextInt ..).calm fun _ => hj _
    · exact .bind (OobOnly.readInt ..).calm fun _ => .bind (.ok _) fun _ => hj _

theorem Calm.readCoords (μ : Mapping) (lw order pos k idx : Nat) (acts : List (TAct W)) (r : Reader) :
    Calm (readCoords μ lw order pos k idx acts r) := by
  induction k generalizing idx acts r with
  | zero => exact .ok _
  | succ k ih =>
    unfold Pigo.readCoords
    refine .bind (OobOnly.readInt ..).calm fun _ => ?_
    dsimp only
    split
    · exact .ok _
    · exact ih _ _ _

theorem Calm.tensorPlan (μ : Mapping) (lw ow : Nat) {wk : WKind W} (hw : wk.Calm) (T : Nat) (r : Reader) :
    Calm (tensorPlan μ lw ow wk T r) := by
  unfold Pigo.tensorPlan
  refine .bind ?_ fun order => .bind (.mapE (fun _ => (OobOnly.elRegion ..).calm) _) fun regions =>
    .bind (.mapE (fun rs => ?_) _) fun counts => .bind (.mapE (fun p => ?_) _) fun acts => .ok _
  · unfold tensorOrder
    exact .bind (OobOnly.moveToFirstInt ..).calm fun _ => .bind (.countSpacesN ..) fun _ => .ok _
  · unfold tensorCountAll
    refine .bind (.whileGood (fun s r => ?_) ..) fun _ => .ok _
    unfold tensorCount
    refine .bind (.skipCoords ..) fun q => ?_
    dsimp only
    split
    · exact .ok _
    · exact .bind (.moveToEol ..) fun _ => .bind (OobOnly.moveToNextInt ..).calm fun _ => .ok _
  · unfold tensorSetAll
    refine .bind (.whileGood (fun s r => ?_) ..) fun _ => .ok _
    unfold tensorSet
    refine .bind (.readCoords ..) fun q => ?_
    dsimp only
    split
    · exact .ok _
    · exact .bind (hw ..) fun _ => .bind (.moveToEol ..) fun _ => .bind (OobOnly.moveToNextInt ..).calm fun _ => .ok _

/-! ### The loaders -/

theorem absurd_thrown {p : R α} (h : p.Calm) {X : Prop} (f : Fault) (hf : p (.error f)) (ht : Thrown f) : X := absurd ht (h.calm f hf)

theorem fReadEl_tracks (s ws : Storage) (μ : Mapping) (lw ow : Nat) (cfg : Cfg) {wk : WKind W} (hw : wk.Silent) (T : Nat) (r : Reader) :
    Tracks E (fReadEl E s ws μ lw ow cfg wk T r) (tReadEl s ws μ lw ow cfg wk T r) := by
  unfold fReadEl tReadEl
  refine .vec (.region (.brun _ fun regions => .brun _ fun counts => .balloc _ (.run _)) ?_)
  refine .brun (absurd_thrown (.lift (.mapE (fun _ => (OobOnly.elRegion ..).calm) _))) fun _ _ =>
    .brun (absurd_thrown (.lift (.mapE (fun _ => .elCount μ lw cfg hw _) _))) fun _ _ => .balloc ?_
  exact .run (absurd_thrown (R.Calm.pass2 μ lw ow cfg hw.read ..)) fun _ _ => trivial

theorem fReadMm_tracks (s ws : Storage) (μ : Mapping) (lw ow : Nat) (cfg : Cfg) {wk : WKind W} (hw : wk.Silent) (T : Nat) (r : Reader) :
    Tracks E (fReadMm E s ws μ lw ow cfg wk T r) (tReadMm s ws μ lw ow cfg wk T r) := by
  unfold fReadMm tReadMm
  exact .brun _ fun h => .using (fReadEl_tracks s ws μ lw ow cfg hw T _) fun c => .run _

theorem fReadBinCoo_tracks (s ws : Storage) (T lb ob : Nat) (wgt : Bool) (cw : Codec W) (μ : Mapping) (p : Nat) :
    Tracks E (fReadBinCoo E s ws T lb ob wgt cw μ p) (tReadBinCoo s ws T lb ob wgt cw μ p) := by
  unfold fReadBinCoo tReadBinCoo
  exact .brun _ fun _ => .brun _ fun _ => .brun _ fun _ => .brun _ fun _ => .brun _ fun _ => .brun _ fun _ => .brun _ fun _ =>
    .brun _ fun _ => .brun _ fun _ => .balloc _ (.brun _ fun _ => .brun _ fun _ => .brun _ fun _ => .pure _)

theorem fReadBinCsr_tracks (st : Stor) (ws : Storage) (T lb ob : Nat) (wgt : Bool) (cw : Codec W) (μ : Mapping) (p : Nat) :
    Tracks E (fReadBinCsr E st ws T lb ob wgt cw μ p) (tReadBinCsr st ws T lb ob wgt cw μ p) := by
  unfold fReadBinCsr tReadBinCsr
  exact .brun _ fun _ => .brun _ fun _ => .brun _ fun _ => .brun _ fun _ => .brun _ fun _ => .brun _ fun _ => .brun _ fun _ =>
    .brun _ fun _ => .brun _ fun _ => .balloc _ (.brun _ fun _ => .brun _ fun _ => .brun _ fun _ => .pure _)

/-- Grouping of a bind whose last part allocates nothing. -/
theorem TR.bind_assoc (p : TR α) (k : α → TR β) (l : β → TR γ) : ((p >>= k) >>= l) = (p >>= fun a => k a >>= l) := by
  funext o L
  apply propext
  constructor
  · rintro ⟨o2, L2, ⟨o1, L1, h1, h2⟩, h3⟩
    refine ⟨o1, L1, h1, ?_⟩
    cases o1 with
    | error f =>
      obtain ⟨rfl, rfl⟩ := h2
      exact h3
    | ok a =>
      obtain ⟨L3, h4, rfl⟩ := h2
      cases o2 with
      | error f =>
        obtain ⟨rfl, rfl⟩ := h3
        exact ⟨L3, ⟨_, _, h4, rfl, rfl⟩, rfl⟩
      | ok b =>
        obtain ⟨L4, h5, rfl⟩ := h3
        refine ⟨keep o L3 ++ L4, ⟨_, _, h4, L4, h5, rfl⟩, ?_⟩
        cases o <;> simp [keep, unwind_append]
  · rintro ⟨o1, L1, h1, h2⟩
    cases o1 with
    | error f =>
      obtain ⟨rfl, rfl⟩ := h2
      exact ⟨_, _, ⟨_, _, h1, rfl, rfl⟩, rfl, rfl⟩
    | ok a =>
      obtain ⟨L2, ⟨o2, L3, h3, h4⟩, rfl⟩ := h2
      cases o2 with
      | error f =>
        obtain ⟨rfl, rfl⟩ := h4
        exact ⟨_, _, ⟨_, _, h1, _, h3, rfl⟩, rfl, rfl⟩
      | ok b =>
        obtain ⟨L4, h5, rfl⟩ := h4
        refine ⟨_, _, ⟨_, _, h1, _, h3, rfl⟩, L4, h5, ?_⟩
        cases o <;> simp [keep, unwind_append]

theorem TR.pure_bind (a : α) (k : α → TR β) : (Pure.pure a >>= k : TR β) = k a := by
  funext o L
  apply propext
  constructor
  · rintro ⟨o1, L1, ⟨h1, rfl⟩, h2⟩
    have h1 : o1 = .ok a := h1
    subst h1
    obtain ⟨L2, h3, rfl⟩ := h2
    cases o <;> simpa [keep, unwind] using h3
  · intro h
    exact ⟨_, [], ⟨rfl, rfl⟩, L, h, by cases o <;> simp [keep, unwind]⟩

theorem fReadGraph_tracks (st : Stor) (ws : Storage) (wgt : Bool) (lw ow T : Nat) (μ : Mapping) (r : Reader) :
    Tracks E (fReadGraph (W := W) E st ws wgt lw ow T μ r) (tReadGraph st ws wgt lw ow T μ r) := by
  have hq : (tReadGraph (W := W) st ws wgt lw ow T μ r) = ((do
      let p ← TR.run (R.lift (graphPlan μ lw ow T r))
      let _ ← TR.alloc (csrBlocks st ws wgt p.m (plusOne lw p.n))
      let jo ← TR.run (R.any (Nat → Nat))
      let je ← TR.run (R.any (Nat → Nat))
      let o ← TR.run (R.lift (graphInit p.base p.n p.m (alloc jo (plusOne lw p.n))))
      let q ← TR.run (R.par (sumStep storeAct storeAct) p.threads (o, alloc je p.m))
      pure (p, q)) >>= fun pq => TR.run (R.lift (graphFinish lw ow pq.1 pq.2.1 pq.2.2))) := by
    unfold tReadGraph
    simp only [TR.bind_assoc, TR.pure_bind]
  rw [hq]
  unfold fReadGraph
  refine .vec (.bind (.region (.brun _ fun p => .balloc _ (.brun _ fun jo => .brun _ fun je => .brun _ fun o => .brun _ fun q => .pure _)) ?_)
    fun pq => .run _)
  refine .brun (absurd_thrown (.lift (.graphPlan ..))) fun p _ => .balloc (.brun (absurd_thrown (.any _)) fun jo _ =>
    .brun (absurd_thrown (.any _)) fun je _ => .brun (absurd_thrown (.lift ?_)) fun o _ =>
    .brun (absurd_thrown (.par (fun _ _ => .sumStep (fun _ _ => .storeAct ..) (fun _ _ => .storeAct ..) _ _) _ _)) fun q _ => .pure trivial)
  unfold graphInit
  refine .bind (.runActs (fun _ _ => .storeAct ..) _ _) fun o => ?_
  exact .store ..

theorem fConvertCsr_tracks (s ws : Storage) (ow T : Nat) (cfg : Cfg) (wgt : Bool) (c : Csr W) :
    Tracks E (fConvertCsr E s ws ow T cfg wgt c) (tConvertCsr s ws ow T cfg wgt c) := by
  unfold fConvertCsr tConvertCsr
  refine .brun _ fun _ => .brun _ fun _ => .brun _ fun m => ?_
  split
  · exact .run _
  · exact .balloc _ (.brun _ fun _ => .brun _ fun _ => .brun _ fun _ => .brun _ fun _ => .pure _)

/-- The working arrays are gone when the conversion ends. -/
theorem work_tracks (bs : List Blk) (p : R α) :
    Tracks E (FR.using (FR.alloc E bs) (fun _ _ _ => []) (fun _ => FR.run p)) (TR.run p) := by
  constructor
  · intro hs z L
    constructor
    · rintro ⟨z1, L1, (⟨rfl, rfl⟩ | ⟨h, _⟩), hz⟩
      · obtain ⟨L2, ⟨o, rfl, ho, rfl⟩, rfl⟩ := hz
        exact ⟨o, rfl, ho, rfl⟩
      · rw [hs] at h; cases h
    · rintro ⟨o, rfl, ho, rfl⟩
      exact ⟨_, _, .inl ⟨rfl, rfl⟩, [], ⟨o, rfl, ho, rfl⟩, rfl⟩
  · rintro z L ⟨z1, L1, (⟨rfl, rfl⟩ | ⟨hs, k, _, rfl, rfl⟩), hz⟩
    · obtain ⟨L2, ⟨o, rfl, ho, rfl⟩, rfl⟩ := hz
      exact .inl ⟨o, _, rfl, ho, rfl⟩
    · rw [hz.1]; exact .inr ⟨hs, .inl rfl⟩

theorem fConvertCoo_tracks (st : Stor) (ws : Storage) (lw ow T : Nat) (wgt : Bool) (coo : Coo W) :
    Tracks E (fConvertCoo E st ws lw ow T wgt coo) (tConvertCoo st ws lw ow T wgt coo) := by
  unfold fConvertCoo tConvertCoo
  exact .balloc _ (work_tracks _ _)

theorem fCopyCoo_tracks (s ws : Storage) (T : Nat) (wgt : Bool) (c : Coo W) : Tracks E (fCopyCoo E s ws T wgt c) (tCopyCoo s ws T wgt c) := by
  unfold fCopyCoo tCopyCoo
  exact .balloc _ (.run _)

theorem fReadCooFmt_tracks (s : Storage) {P : Params W} (hw : P.wk.Silent) (cfg : Cfg) (μ : Mapping) (p : Nat) (ft : FileType) :
    Tracks E (fReadCooFmt E s P cfg μ p ft) (tReadCooFmt s P cfg μ p ft) := by
  unfold fReadCooFmt tReadCooFmt
  split
  · exact .bind (fReadMm_tracks s P.stor μ _ _ cfg hw _ _) fun c => .pure _
  · split
    · exact .bind (fReadEl_tracks s P.stor μ _ _ cfg hw _ _) fun c => .pure _
    · exact fReadBinCoo_tracks ..

theorem fReadCsr_tracks (st : Stor) {P : Params W} (hw : P.wk.Silent) (μ : Mapping) (fn : List Byte) (p : Nat) (ft : FileType) :
    Tracks E (fReadCsr E st P μ fn p ft) (tReadCsr st P μ fn p ft) := by
  unfold fReadCsr tReadCsr
  refine .brun _ fun ft => ?_
  split
  · exact .using (fReadCooFmt_tracks .pointer hw {} μ p ft) fun cp => .bind (fConvertCoo_tracks ..) fun c => .pure _
  · split
    · exact fReadBinCsr_tracks ..
    · split
      · split
        · exact .run _
        · exact .bind (fReadGraph_tracks ..) fun c => .pure _
      · exact .run _

theorem fReadCoo_tracks (s : Storage) {P : Params W} (hw : P.wk.Silent) (cfg : Cfg) (μ : Mapping) (fn : List Byte) (p : Nat) (ft : FileType) :
    Tracks E (fReadCoo E s P cfg μ fn p ft) (tReadCoo s P cfg μ fn p ft) := by
  unfold fReadCoo tReadCoo
  refine .brun _ fun ft => ?_
  split
  · exact .bind (fReadCooFmt_tracks s hw cfg μ p ft) fun cp => .pure _
  · split
    · exact .using (fReadCsr_tracks ⟨s, s⟩ hw μ fn p ft) fun cp => fConvertCsr_tracks ..
    · exact .run _

theorem fTwoGraphs_tracks (s : Storage) (st : Stor) (ws : Storage) (lw ow T : Nat) (wgt : Bool) (coo : Coo W) :
    Tracks E (fTwoGraphs E s st ws lw ow T wgt coo) (tTwoGraphs s st ws lw ow T wgt coo) := by
  unfold fTwoGraphs tTwoGraphs
  exact .bind (.using (fCopyCoo_tracks ..) fun copy => fConvertCoo_tracks ..) fun a => .bind (fConvertCoo_tracks ..) fun b => .pure _

theorem fReadDiGraph_tracks (st : Stor) {P : Params W} (hw : P.wk.Silent) (μ : Mapping) (fn : List Byte) (ft : FileType) :
    Tracks E (fReadDiGraph E st P μ fn ft) (tReadDiGraph st P μ fn ft) := by
  unfold fReadDiGraph tReadDiGraph
  refine .brun _ fun ft' => ?_
  split
  · exact .brun _ fun p => .bind (fReadCsr_tracks st hw μ fn _ .auto) fun a => .bind (fReadCsr_tracks st hw μ fn _ .auto) fun b => .pure _
  · exact .using (fReadCoo_tracks st.l hw {} μ fn 0 ft) fun coo => .bind (fTwoGraphs_tracks ..) fun g => .pure _

theorem fReadMatrix_tracks (st : Stor) {P : Params W} (hw : P.wk.Silent) (μ : Mapping) (fn : List Byte) :
    Tracks E (fReadMatrix E st P μ fn) (tReadMatrix st P μ fn) := by
  unfold fReadMatrix tReadMatrix
  exact .using (fReadCoo_tracks st.l hw {} μ fn 0 .auto) fun coo => .bind (fTwoGraphs_tracks ..) fun g => .pure _

theorem fReadTensor_tracks (s : Storage) {P : Params W} (hw : P.wk.Silent) (μ : Mapping) (fn : List Byte) (p : Nat) (ft : FileType) :
    Tracks E (fReadTensor E s P μ fn p ft) (tReadTensor s P μ fn p ft) := by
  unfold fReadTensor tReadTensor
  refine .brun _ fun ft => ?_
  split
  · refine .vec (.region (.brun _ fun q => .balloc _ (.brun _ fun jc => .brun _ fun jw => .brun _ fun mem => .pure _)) ?_)
    exact .brun (absurd_thrown (.lift (.tensorPlan _ _ _ hw.read _ _))) fun q _ => .balloc (.brun (absurd_thrown (.any _)) fun jc _ =>
      .brun (absurd_thrown (.any _)) fun jw _ => .brun (absurd_thrown (.par (fun _ _ => .stepT ..) _ _)) fun _ _ => .pure trivial)
  · split
    · exact .brun _ fun _ => .brun _ fun _ => .brun _ fun _ => .brun _ fun _ => .brun _ fun _ => .brun _ fun _ => .brun _ fun _ =>
        .brun _ fun _ => .balloc _ (.brun _ fun _ => .brun _ fun _ => .pure _)
    · exact .run _

end Pigo
