import Verif.Model.Throw
import Verif.Props.GraphAny

/-!
# Lemmas about the loaders with allocation
-/

namespace Pigo

variable {α β S W : Type}

/-- The fault is a C++ exception (and not undefined behaviour or the model's loop counter). -/
def Thrown (f : Fault) : Prop := f = .error ∨ f = .nyi

/-! ### Erasure -/

/-- The outcomes, without the blocks. -/
def TR.erase (p : TR α) : R α := fun o => ∃ L, p o L

theorem erase_run (p : R α) : (TR.run p).erase = p := by
  funext o; exact propext ⟨fun ⟨_, h, _⟩ => h, fun h => ⟨[], h, rfl⟩⟩

theorem erase_using (p : TR α) (left : α → M β → List Blk → List Blk) (k : α → TR β) :
    (TR.using p left k).erase = (p.erase >>= fun a => (k a).erase) := by
  funext out
  refine propext ⟨?_, ?_⟩
  · rintro ⟨L, o, L1, hp, h⟩
    refine ⟨o, ⟨L1, hp⟩, ?_⟩
    cases o with
    | error f => exact h.1
    | ok a => obtain ⟨L2, h2, _⟩ := h; exact ⟨L2, h2⟩
  · rintro ⟨o, ⟨L1, hp⟩, h⟩
    cases o with
    | error f => exact ⟨L1, .error f, L1, hp, h, rfl⟩
    | ok a => obtain ⟨L2, h2⟩ := h; exact ⟨_, .ok a, L1, hp, L2, h2, rfl⟩

theorem erase_bind (p : TR α) (k : α → TR β) : (p >>= k).erase = (p.erase >>= fun a => (k a).erase) := erase_using _ _ _

theorem erase_pure (a : α) : (pure a : TR α).erase = pure a := erase_run _

theorem erase_alloc (bs : List Blk) : (TR.alloc bs).erase = pure () := by
  funext o; exact propext ⟨fun ⟨_, h, _⟩ => h, fun h => ⟨bs, h, rfl⟩⟩

theorem R.pure_bind' (a : α) (k : α → R β) : ((pure a : R α) >>= k) = k a := by
  funext o
  refine propext ⟨?_, fun h => ⟨.ok a, rfl, h⟩⟩
  rintro ⟨o', rfl, h⟩; exact h

theorem R.bind_pure' (p : R α) : (p >>= fun a => pure a) = p := by
  funext o
  refine propext ⟨?_, fun h => ?_⟩
  · rintro ⟨o', h, h'⟩
    cases o' with
    | error f => subst h'; exact h
    | ok a => cases h'; exact h
  · cases o with
    | error f => exact ⟨.error f, h, rfl⟩
    | ok a => exact ⟨.ok a, h, rfl⟩

theorem R.bind_assoc' {γ : Type} (p : R α) (k : α → R β) (l : β → R γ) : ((p >>= k) >>= l) = (p >>= fun a => k a >>= l) := by
  funext out
  refine propext ⟨?_, ?_⟩
  · rintro ⟨o', ⟨o, hp, h⟩, h'⟩
    cases o with
    | error f => subst h; exact ⟨.error f, hp, h'⟩
    | ok a => exact ⟨.ok a, hp, o', h, h'⟩
  · rintro ⟨o, hp, h⟩
    cases o with
    | error f => exact ⟨.error f, ⟨.error f, hp, rfl⟩, h⟩
    | ok a => obtain ⟨o', h1, h2⟩ := h; exact ⟨o', ⟨.ok a, hp, h1⟩, h2⟩

theorem erase_ite (c : Prop) [Decidable c] (p q : TR α) : (if c then p else q).erase = if c then p.erase else q.erase := by
  split <;> rfl

/-! ### A logic for what is left -/

/-- After a throw the blocks left satisfy `E`, after a success with `a` they satisfy `S a`. -/
def TR.Post (p : TR α) (E : List Blk → Prop) (S : α → List Blk → Prop) : Prop :=
  ∀ o L, p o L → (∀ f, o = .error f → Thrown f → E L) ∧ (∀ a, o = .ok a → S a L)

theorem TR.Post.mono {p : TR α} {E E' : List Blk → Prop} {S S' : α → List Blk → Prop} (h : p.Post E S) (he : ∀ L, E L → E' L)
    (hs : ∀ a L, S a L → S' a L) : p.Post E' S' :=
  fun o L ho => ⟨fun f h1 h2 => he _ ((h o L ho).1 f h1 h2), fun a h1 => hs _ _ ((h o L ho).2 a h1)⟩

theorem TR.Post.run {p : R α} {E : List Blk → Prop} {S : α → List Blk → Prop} (he : ∀ f, p (.error f) → Thrown f → E [])
    (hs : ∀ a, p (.ok a) → S a []) : (TR.run p).Post E S := by
  rintro o L ⟨ho, rfl⟩
  exact ⟨fun f h1 h2 => he f (h1 ▸ ho) h2, fun a h1 => hs a (h1 ▸ ho)⟩

theorem TR.Post.using {p : TR α} {left : α → M β → List Blk → List Blk} {k : α → TR β} {E : List Blk → Prop}
    {S : β → List Blk → Prop} {S1 : α → List Blk → Prop} (hp : p.Post E S1)
    (hk : ∀ a L1, S1 a L1 → (k a).Post (fun L2 => ∀ f, E (left a (.error f) L1 ++ L2))
      (fun b L2 => S b (left a (.ok b) L1 ++ L2))) : (TR.using p left k).Post E S := by
  rintro out L ⟨o, L1, ho, h⟩
  cases o with
  | error f =>
    obtain ⟨rfl, rfl⟩ := h
    exact ⟨fun g h1 h2 => by cases h1; exact (hp _ _ ho).1 _ rfl h2, fun a h1 => nomatch h1⟩
  | ok a =>
    obtain ⟨L2, h2, rfl⟩ := h
    have hk' := hk a L1 ((hp _ _ ho).2 a rfl) out L2 h2
    refine ⟨fun f h1 ht => ?_, fun b h1 => ?_⟩
    · have := hk'.1 f h1 ht f
      subst h1; exact this
    · have := hk'.2 b h1
      subst h1; exact this

theorem TR.Post.bind {p : TR α} {k : α → TR β} {E : List Blk → Prop} {S : β → List Blk → Prop}
    {S1 : α → List Blk → Prop} (hp : p.Post E S1)
    (hk : ∀ a L1, S1 a L1 → (k a).Post (fun L2 => E (unwind L1 ++ L2)) (fun b L2 => S b (L1 ++ L2))) : (p >>= k).Post E S :=
  TR.Post.using hp fun a L1 h => (hk a L1 h).mono (fun _ hE _ => hE) fun _ _ h => h

theorem TR.Post.brun {p : R α} {k : α → TR β} {E : List Blk → Prop} {S : β → List Blk → Prop}
    (he : ∀ f, p (.error f) → Thrown f → E []) (hk : ∀ a, p (.ok a) → (k a).Post E S) : (TR.run p >>= k).Post E S :=
  TR.Post.bind (S1 := fun a L => p (.ok a) ∧ L = []) (TR.Post.run he fun a h => ⟨h, rfl⟩) (by
    rintro a _ ⟨h, rfl⟩; exact hk a h)

theorem TR.Post.balloc {bs : List Blk} {k : Unit → TR β} {E : List Blk → Prop} {S : β → List Blk → Prop}
    (hk : (k ()).Post (fun L => E (unwind bs ++ L)) (fun a L => S a (bs ++ L))) : (TR.alloc bs >>= k).Post E S :=
  TR.Post.bind (S1 := fun _ L => L = bs) (by rintro o L ⟨rfl, rfl⟩; exact ⟨fun _ h => (nomatch h), fun _ _ => rfl⟩) (by
    rintro ⟨⟩ _ rfl; exact hk)

theorem TR.Post.pure {a : α} {E : List Blk → Prop} {S : α → List Blk → Prop} (h : S a []) : (pure a : TR α).Post E S := by
  refine TR.Post.run (fun f h => nomatch h) fun b hb => ?_
  cases hb; exact h

/-- A computation that does not throw; `S` holds of a success. -/
theorem TR.Post.quiet {p : TR α} {E : List Blk → Prop} {S : α → List Blk → Prop} (h : p.Post (fun _ => False) S) : p.Post E S :=
  h.mono (fun _ h => h.elim) fun _ _ h => h

/-! ### Computations that do not throw -/

/-- The computation does not throw. -/
structure Calm (m : M α) : Prop where
  calm : ∀ f, m = .error f → ¬ Thrown f

theorem Calm.ok (a : α) : Calm (.ok a : M α) := ⟨fun _ h => nomatch h⟩
theorem Calm.err {f : Fault} (h : ¬ Thrown f) : Calm (.error f : M α) := ⟨fun g hg => by cases hg; exact h⟩
theorem calm_oob : ¬ Thrown .oob := by rintro (h | h) <;> cases h
theorem calm_fuel : ¬ Thrown .fuel := by rintro (h | h) <;> cases h
theorem calm_overflow : ¬ Thrown .overflow := by rintro (h | h) <;> cases h
theorem OobOnly.calm {m : M α} (h : OobOnly m) : Calm m := ⟨fun f hf => by rw [h.only f hf]; exact calm_oob⟩
theorem Calm.bind {m : M α} {k : α → M β} (h : Calm m) (hk : ∀ a, Calm (k a)) : Calm (m >>= k) := by
  cases m with
  | error f => exact ⟨fun g hg => by cases hg; exact h.calm f rfl⟩
  | ok a => exact hk a

theorem Calm.mapE {f : α → M β} (h : ∀ a, Calm (f a)) (l : List α) : Calm (Pigo.mapE f l) := by
  induction l with
  | nil => exact .ok _
  | cons a l ih => unfold Pigo.mapE; exact .bind (h a) fun b => .bind ih fun bs => .ok _

theorem Calm.store (a : List α) (i : Nat) (v : α) : Calm (store a i v) := by
  unfold Pigo.store; split
  · exact .ok _
  · exact .err calm_oob

theorem Calm.load (a : List α) (i : Nat) : Calm (load a i) := by
  unfold Pigo.load; split
  · exact .ok _
  · exact .err calm_oob

theorem Calm.runActs {step : α → S → M S} (h : ∀ a s, Calm (step a s)) (l : List α) (s : S) : Calm (Pigo.runActs step l s) := by
  induction l generalizing s with
  | nil => exact .ok _
  | cons a l ih => unfold Pigo.runActs; exact .bind (h a s) fun s => ih s

theorem Calm.stepAct (a : Act W) (s : Mem W) : Calm (stepAct a s) := by
  cases a <;> unfold Pigo.stepAct
  · exact .bind (.store ..) fun _ => .ok _
  · exact .bind (.store ..) fun _ => .ok _
  · exact .bind (.store ..) fun _ => .ok _
  · dsimp only
    split
    · exact .err calm_oob
    · exact .bind (.store ..) fun _ => .ok _

theorem Calm.whileGood {σ : Type} {body : σ → Reader → M (σ × Reader)} (h : ∀ s r, Calm (body s r)) (n : Nat) (s : σ) (r : Reader) :
    Calm (Pigo.whileGood body n s r) := by
  induction n generalizing s r with
  | zero => unfold Pigo.whileGood; split; exact .err calm_fuel; exact .ok _
  | succ n ih => unfold Pigo.whileGood; split; exact .bind (h s r) fun q => ih _ _; exact .ok _

/-- Reading a weight does not throw. -/
def WKind.Calm (wk : WKind W) : Prop := ∀ μ r, Pigo.Calm (wk.read μ r)

theorem wNone_calm : wNone.Calm := fun _ _ => .ok _
theorem wUint_calm (w : Nat) : (wUint w).Calm := fun μ r =>
  .bind (OobOnly.moveToNextInt ..).calm fun _ => .bind (OobOnly.readInt ..).calm fun _ => .ok _

theorem Calm.setWgt (μ : Mapping) {wk : WKind W} (hw : wk.Calm) (st : SetSt W) (r : Reader) : Calm (setWgt μ wk st r) :=
  .bind (hw μ r) fun _ => .ok _

theorem Calm.moveToEol (μ : Mapping) (r : Reader) : Calm (moveToEol μ r) := (OobOnly.scan ..).calm

theorem Calm.setEntryN (μ : Mapping) (lw : Nat) (cfg : Cfg) {wk : WKind W} (hw : wk.Calm) (n : Nat) (st : SetSt W) (r : Reader) :
    Calm (setEntryN μ lw cfg wk n st r) := by
  induction n generalizing st r with
  | zero => exact .err calm_fuel
  | succ n ih =>
    unfold Pigo.setEntryN
    refine .bind (OobOnly.readInt ..).calm fun _ => .bind (OobOnly.moveToNextInt ..).calm fun _ =>
      .bind (OobOnly.readInt ..).calm fun _ => .bind (.setWgt μ hw ..) fun q => ?_
    dsimp only
    split
    · exact .ok _
    · refine .bind (.moveToEol ..) fun _ => .bind (OobOnly.moveToNextInt ..).calm fun _ => ?_
      split
      · exact ih _ _
      · split
        · exact ih _ _
        · exact .ok _

theorem Calm.setEntry (μ : Mapping) (lw : Nat) (cfg : Cfg) {wk : WKind W} (hw : wk.Calm) (st : SetSt W) (r : Reader) :
    Calm (setEntry μ lw cfg wk st r) := by
  unfold Pigo.setEntry
  split
  · unfold setEntryPlain
    refine .bind (OobOnly.readInt ..).calm fun _ => .bind (OobOnly.moveToNextInt ..).calm fun _ =>
      .bind (OobOnly.readInt ..).calm fun _ => .bind (.setWgt μ hw ..) fun q => ?_
    dsimp only
    split
    · exact .ok _
    · exact .bind (.moveToEol ..) fun _ => .bind (OobOnly.moveToNextInt ..).calm fun _ => .ok _
  · exact .setEntryN μ lw cfg hw ..

theorem Calm.elSet (μ : Mapping) (lw : Nat) (cfg : Cfg) {wk : WKind W} (hw : wk.Calm) (offs : List Nat) (p : Nat × Reader) :
    Calm (elSet μ lw cfg wk offs p) := by
  unfold Pigo.elSet
  exact .bind (.whileGood (fun s r => .setEntry μ lw cfg hw s r) ..) fun _ => .ok _

/-- No outcome is an exception. -/
structure R.Calm (p : R α) : Prop where
  calm : ∀ f, p (.error f) → ¬ Thrown f

theorem R.Calm.lift {m : M α} (h : Pigo.Calm m) : (R.lift m).Calm := ⟨fun f hf => h.calm f hf.symm⟩
theorem R.Calm.pure (a : α) : (pure a : R α).Calm := ⟨fun _ h => nomatch h⟩
theorem R.Calm.choose (P : α → Prop) : (R.choose P).Calm := ⟨fun _ ⟨_, _, h⟩ => nomatch h⟩
theorem R.Calm.any (α : Type) : (R.any α).Calm := R.Calm.choose _
theorem R.Calm.par {step : α → S → M S} (h : ∀ a s, Pigo.Calm (step a s)) (th : List (List α)) (s : S) : (R.par step th s).Calm :=
  ⟨fun f ⟨sched, _, hf⟩ => (Calm.runActs h sched s).calm f hf.symm⟩
theorem R.Calm.bind {p : R α} {k : α → R β} (h : p.Calm) (hk : ∀ a, (k a).Calm) : (p >>= k).Calm := by
  constructor
  rintro f ⟨o, ho, h'⟩
  cases o with
  | error g => cases h'; exact h.calm _ ho
  | ok a => exact (hk a).calm f h'

theorem Calm.storeAct (a : Nat × α) (s : List α) : Calm (storeAct a s) := .store ..
theorem Calm.sumStep {γ T : Type} {f : α → S → M S} {g : γ → T → M T} (hf : ∀ a s, Calm (f a s)) (hg : ∀ a s, Calm (g a s))
    (a : α ⊕ γ) (s : S × T) : Calm (sumStep f g a s) := by
  cases a <;> unfold Pigo.sumStep
  · exact .bind (hf ..) fun _ => .ok _
  · exact .bind (hg ..) fun _ => .ok _

theorem Calm.incAct (ow : Nat) (x : List Nat) (e : Nat) (degs : List Nat) : Calm (incAct ow x e degs) := by
  unfold Pigo.incAct
  refine .bind (.load ..) fun _ => .bind (.load ..) fun _ => ?_
  split
  · exact .store ..
  · exact .err calm_overflow

theorem Calm.scatSlot (x offsets : List Nat) (s : Scatter W) (e : Nat) : Calm (scatSlot x offsets s e) := by
  unfold Pigo.scatSlot
  refine .bind (.load ..) fun _ => .bind (.load ..) fun _ => ?_
  split
  · exact .err calm_oob
  · split
    · exact .ok _
    · exact .err calm_overflow

theorem Calm.scatStep (x y : List Nat) (w : List W) (offsets : List Nat) (a : ScatAct) (s : Scatter W) :
    Calm (scatStep x y w offsets a s) := by
  cases a <;> unfold Pigo.scatStep
  · refine .bind (.load ..) fun _ => .bind (.load ..) fun _ => ?_
    split
    · exact .err calm_overflow
    · exact .bind (.store ..) fun _ => .ok _
  · exact .bind (.load ..) fun _ => .bind (.scatSlot ..) fun _ => .bind (.store ..) fun _ => .ok _
  · exact .bind (.load ..) fun _ => .bind (.scatSlot ..) fun _ => .bind (.store ..) fun _ => .ok _

theorem R.Calm.countDegrees (ow T n m : Nat) (x : List Nat) : (countDegrees ow T n m x).Calm := by
  unfold Pigo.countDegrees
  refine .bind (.any _) fun _ => .bind (.any _) fun _ => .bind (.any _) fun _ => .bind (.choose _) fun _ =>
    .bind (.par (fun _ _ => Calm.storeAct ..) ..) fun _ => .bind (.choose _) fun _ =>
    .bind (.par (fun _ _ => Calm.incAct ..) ..) fun _ => ?_
  exact .par (fun _ _ => .sumStep (fun _ _ => .storeAct ..) (fun _ _ => .storeAct ..) ..) ..

theorem R.Calm.convertCoo (lw ow T : Nat) (wgt : Bool) (coo : Coo W) : (convertCoo lw ow T wgt coo).Calm := by
  unfold Pigo.convertCoo
  refine .bind (.any _) fun _ => .bind (.countDegrees ..) fun q => ?_
  exact .bind (.par (fun _ _ => Calm.storeAct ..) ..) fun _ => .bind (.choose _) fun _ =>
    .bind (.par (fun _ _ => Calm.scatStep ..) ..) fun _ => .pure _

theorem Calm.copyAct (src : List α) (i : Nat) (dst : List α) : Calm (copyAct src i dst) := by
  unfold Pigo.copyAct
  exact .bind (.load ..) fun _ => .store ..

theorem R.Calm.copyCoo (T : Nat) (wgt : Bool) (c : Coo W) : (copyCoo T wgt c).Calm := by
  unfold Pigo.copyCoo copyWeights copyLoop
  refine .bind (.any _) fun _ => .bind (.choose _) fun _ =>
    .bind (.par (fun _ _ => Calm.sumStep (fun _ _ => .copyAct ..) (fun _ _ => .copyAct ..) ..) ..) fun q => ?_
  refine .bind ?_ fun _ => .pure _
  split
  · exact .bind (.choose _) fun _ => .par (fun _ _ => .copyAct ..) ..
  · exact .pure _

theorem R.Calm.readArr (T : Nat) (μ : Mapping) (k : Nat) (dec : List Byte → α) (n bytes p : Nat) :
    (readArr T μ k dec n bytes p).Calm := by
  unfold Pigo.readArr parRead
  refine .bind (.any _) fun _ => .bind ?_ fun q => .pure _
  refine .bind (.lift ?_) fun _ => .bind (.par (fun _ _ => Calm.storeAct ..) ..) fun _ => .pure _
  refine .mapE (fun tid => ?_) _
  unfold chunkActs
  exact .bind (.mapE (fun _ => (OobOnly.get ..).calm) _) fun _ => .ok _

theorem R.Calm.readWeights (T : Nat) (μ : Mapping) (wgt : Bool) (cw : Codec W) (m p : Nat) :
    (readWeights T μ wgt cw m p).Calm := by
  unfold Pigo.readWeights
  split
  · exact .readArr ..
  · exact .pure _

theorem Calm.loadRange (a : List α) (s e : Nat) : Calm (loadRange a s e) := .mapE (fun _ => .load ..) _

theorem Calm.csrRow (stor : Storage) (cfg : Cfg) (wgt : Bool) (c : Csr W) (v : Nat) : Calm (csrRow stor cfg wgt c v) := by
  unfold Pigo.csrRow
  refine .bind (.load ..) fun _ => .bind (.load ..) fun _ => .bind (.loadRange ..) fun _ => ?_
  dsimp only
  split
  · refine .bind (.bind ?_ fun _ => .ok _) fun _ => .ok _
    unfold loadWeights
    split
    · exact .err calm_oob
    · exact .loadRange ..
  · exact .bind (.ok _) fun _ => .ok _

theorem R.Calm.pass2 (μ : Mapping) (lw ow : Nat) (cfg : Cfg) {wk : WKind W} (hw : wk.Calm) (T : Nat) (regions : List Reader)
    (offs : List Nat) : (readElPass2 μ lw ow cfg wk T regions offs).Calm := by
  constructor
  intro f hf
  unfold readElPass2 at hf
  split at hf
  · next h => cases hf; exact (Calm.mapE (fun _ => Calm.elSet μ lw cfg hw ..) _).calm _ h
  · obtain ⟨j, sched, _, h⟩ := hf
    refine Pigo.Calm.calm (m := execPlan lw wk.wgt j _ sched) ?_ f h.symm
    unfold execPlan
    exact .bind (.runActs (fun _ _ => .stepAct ..) ..) fun _ => .ok _

theorem Calm.stepT (a : TAct W) (s : TMem W) : Calm (stepT a s) := by
  cases a <;> unfold Pigo.stepT
  · exact .bind (.store ..) fun _ => .ok _
  · exact .bind (.store ..) fun _ => .ok _

end Pigo
