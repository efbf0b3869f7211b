import Verif.Props.Fail
import Verif.Props.Total
import Verif.Props.Binary2
import Verif.Props.EdgeList

/-!
# C92: memory that runs out

With `E.short` any allocation of a load may fail.  `fRead… E` then ends as it would with enough memory, or by an exception, or, where the allocation is
made inside a parallel region of a program compiled with OpenMP, by the end of the process.
-/

namespace Pigo

open Spec

variable {α β W : Type}

/-! ### What can happen -/

/-- **C92 (soundness)**: when memory may run out, every way a load ends is a way it ends with enough memory (in particular, an object returned is one that
would have been returned), or an exception, or, with OpenMP only, the end of the process. -/
theorem C92_sound (E : Env) (P : Params W) (hw : P.wk.Silent) (s : Storage) (st : Stor) (cfg : Cfg) (μ : Mapping) (fn : List Byte) (ft : FileType) :
    (∀ z L, fReadCoo E s P cfg μ fn 0 ft z L → (∃ o, z = .out o ∧ ((readCoo P cfg μ fn 0 ft).Out o ∨ o = .error .error)) ∨ (z = .ended ∧ E.omp = true)) ∧
    (∀ z L, fReadCsr E st P μ fn 0 ft z L → (∃ o, z = .out o ∧ ((readCsr P μ fn 0 ft).Out o ∨ o = .error .error)) ∨ (z = .ended ∧ E.omp = true)) ∧
    (∀ z L, fReadDiGraph E st P μ fn ft z L → (∃ o, z = .out o ∧ ((readDiGraph P μ fn ft).Out o ∨ o = .error .error)) ∨ (z = .ended ∧ E.omp = true)) ∧
    (∀ z L, fReadMatrix E st P μ fn z L → (∃ o, z = .out o ∧ ((readMatrix P μ fn).Out o ∨ o = .error .error)) ∨ (z = .ended ∧ E.omp = true)) ∧
    (∀ z L, fReadTensor E s P μ fn 0 ft z L → (∃ o, z = .out o ∧ ((readTensor P μ fn 0 ft).Out o ∨ o = .error .error)) ∨ (z = .ended ∧ E.omp = true)) := by
  have key : ∀ {γ : Type} {p : FR γ} {q : TR γ} {r : R γ}, Tracks E p q → (∀ o, (∃ L, q o L) ↔ r.Out o) → ∀ z L, p z L →
      (∃ o, z = .out o ∧ (r.Out o ∨ o = .error .error)) ∨ (z = .ended ∧ E.omp = true) := by
    intro γ p q r ht hq z L hz
    rcases ht.rel z L hz with ⟨o, L', rfl, ho⟩ | ⟨_, rfl | h⟩
    · exact .inl ⟨o, rfl, .inl ((hq o).mp ⟨L', ho⟩)⟩
    · exact .inl ⟨_, rfl, .inr rfl⟩
    · exact .inr h
  obtain ⟨h1, h2, h3, h4, h5⟩ := C84_same_outcomes P s st cfg μ fn ft
  exact ⟨key (fReadCoo_tracks s hw cfg μ fn 0 ft) h1, key (fReadCsr_tracks st hw μ fn 0 ft) h2, key (fReadDiGraph_tracks st hw μ fn ft) h3,
    key (fReadMatrix_tracks st hw μ fn) h4, key (fReadTensor_tracks s hw μ fn 0 ft) h5⟩

/-- **C92 (without OpenMP)**: no load ever ends the process. -/
theorem C92_serial (short : Bool) (P : Params W) (hw : P.wk.Silent) (s : Storage) (st : Stor) (cfg : Cfg) (μ : Mapping) (fn : List Byte) (ft : FileType)
    (L : List Blk) :
    ¬ fReadCoo ⟨false, short⟩ s P cfg μ fn 0 ft .ended L ∧ ¬ fReadCsr ⟨false, short⟩ st P μ fn 0 ft .ended L ∧
    ¬ fReadDiGraph ⟨false, short⟩ st P μ fn ft .ended L ∧ ¬ fReadMatrix ⟨false, short⟩ st P μ fn .ended L ∧
    ¬ fReadTensor ⟨false, short⟩ s P μ fn 0 ft .ended L := by
  obtain ⟨h1, h2, h3, h4, h5⟩ := C92_sound ⟨false, short⟩ P hw s st cfg μ fn ft
  have no : ∀ {γ : Type} {Q : M γ → Prop}, ¬ ((∃ o, (Fin.ended : Fin γ) = .out o ∧ Q o) ∨ ((Fin.ended : Fin γ) = .ended ∧ (false = true))) := by
    rintro γ Q (⟨_, h, _⟩ | ⟨_, h⟩) <;> cases h
  exact ⟨fun h => no (h1 _ _ h), fun h => no (h2 _ _ h), fun h => no (h3 _ _ h), fun h => no (h4 _ _ h), fun h => no (h5 _ _ h)⟩

/-! ### Binary files -/

/-- `p` does not end the process. -/
def Stays (p : FR α) : Prop := ∀ L, ¬ p .ended L

theorem Stays.run (p : R α) : Stays (FR.run p) := by
  rintro L ⟨o, h, _⟩; cases h

theorem Stays.pure (a : α) : Stays (Pure.pure a : FR α) := Stays.run _

theorem Stays.alloc (E : Env) (bs : List Blk) : Stays (FR.alloc E bs) := by
  rintro L (⟨h, _⟩ | ⟨_, _, _, h, _⟩) <;> cases h

theorem Stays.using {p : FR α} {left : α → M β → List Blk → List Blk} {k : α → FR β} (h : Stays p) (hk : ∀ a, Stays (k a)) :
    Stays (FR.using p left k) := by
  rintro L ⟨z1, L1, hp, hz⟩
  cases z1 with
  | ended => exact h _ hp
  | out o =>
    cases o with
    | error f => cases hz.1
    | ok a =>
      obtain ⟨L2, h2, _⟩ := hz
      exact hk a _ h2

theorem Stays.bind {p : FR α} {k : α → FR β} (h : Stays p) (hk : ∀ a, Stays (k a)) : Stays (p >>= k) := Stays.using h hk

theorem Stays.brun (p : R α) {k : α → FR β} (hk : ∀ a, Stays (k a)) : Stays (FR.run p >>= k) := .bind (.run p) hk

theorem Stays.balloc (E : Env) (bs : List Blk) {k : Unit → FR β} (hk : Stays (k ())) : Stays (FR.alloc E bs >>= k) :=
  .bind (.alloc E bs) fun ⟨⟩ => hk

theorem fReadBinCoo_stays (E : Env) (s ws : Storage) (T lb ob : Nat) (wgt : Bool) (cw : Codec W) (μ : Mapping) (p : Nat) :
    Stays (fReadBinCoo E s ws T lb ob wgt cw μ p) := by
  unfold fReadBinCoo
  exact .brun _ fun p => .brun _ fun ⟨ls, p⟩ => .brun _ fun ⟨os, p⟩ => .brun _ fun _ => .brun _ fun _ => .brun _ fun ⟨nrows, p⟩ =>
    .brun _ fun ⟨ncols, p⟩ => .brun _ fun ⟨n, p⟩ => .brun _ fun ⟨m, p⟩ => .balloc _ _ (.brun _ fun ⟨x, p⟩ => .brun _ fun ⟨y, p⟩ =>
    .brun _ fun ⟨w, p⟩ => .pure _)

theorem fReadBinCsr_stays (E : Env) (st : Stor) (ws : Storage) (T lb ob : Nat) (wgt : Bool) (cw : Codec W) (μ : Mapping) (p : Nat) :
    Stays (fReadBinCsr E st ws T lb ob wgt cw μ p) := by
  unfold fReadBinCsr
  exact .brun _ fun p => .brun _ fun ⟨ls, p⟩ => .brun _ fun ⟨os, p⟩ => .brun _ fun _ => .brun _ fun _ => .brun _ fun ⟨nrows, p⟩ =>
    .brun _ fun ⟨ncols, p⟩ => .brun _ fun ⟨n, p⟩ => .brun _ fun ⟨m, p⟩ => .balloc _ _ (.brun _ fun ⟨x, p⟩ => .brun _ fun ⟨y, p⟩ =>
    .brun _ fun ⟨w, p⟩ => .pure _)

theorem fConvertCoo_stays (E : Env) (st : Stor) (ws : Storage) (lw ow T : Nat) (wgt : Bool) (coo : Coo W) :
    Stays (fConvertCoo E st ws lw ow T wgt coo) := by
  unfold fConvertCoo
  exact .balloc _ _ (.using (.alloc _ _) fun _ => .run _)

theorem fConvertCsr_stays (E : Env) (s ws : Storage) (ow T : Nat) (cfg : Cfg) (wgt : Bool) (c : Csr W) :
    Stays (fConvertCsr E s ws ow T cfg wgt c) := by
  unfold fConvertCsr
  refine .brun _ fun nr => .brun _ fun nc => .brun _ fun m => ?_
  split
  · exact .run _
  · exact .balloc _ _ (.brun _ fun j => .brun _ fun its => .brun _ fun th => .brun _ fun mem => .pure _)

theorem fTwoGraphs_stays (E : Env) (s : Storage) (st : Stor) (ws : Storage) (lw ow T : Nat) (wgt : Bool) (coo : Coo W) :
    Stays (fTwoGraphs E s st ws lw ow T wgt coo) := by
  unfold fTwoGraphs fCopyCoo
  exact .bind (.using (.balloc _ _ (.run _)) fun c => fConvertCoo_stays E st ws lw ow T wgt _) fun a =>
    .bind (fConvertCoo_stays E st ws lw ow T wgt _) fun b => .pure _

theorem Stays.blift {p : M α} {k : α → FR β} (hk : ∀ a, p = .ok a → Stays (k a)) : Stays (FR.run (R.lift p) >>= k) := by
  rintro L ⟨z1, L1, ⟨o, rfl, ho, rfl⟩, hz⟩
  cases o with
  | error f => cases hz.1
  | ok a =>
    obtain ⟨L2, h2, _⟩ := hz
    exact hk a ho.symm _ h2

/-- The format is one of text. -/
def TextType (f : FileType) : Prop := f = .edgeList ∨ f = .matrixMarket ∨ f = .graph

theorem fReadCooFmt_stays (E : Env) (s : Storage) (P : Params W) (cfg : Cfg) (μ : Mapping) (p : Nat) (f : FileType) (h : ¬ TextType f) :
    Stays (fReadCooFmt E s P cfg μ p f) := by
  unfold fReadCooFmt
  rw [if_neg (fun e => h (.inr (.inl e))), if_neg (fun e => h (.inl e))]
  exact fReadBinCoo_stays E s P.stor P.T P.lb P.ob P.wk.wgt P.cw μ p

theorem fReadCsr_stays (E : Env) (st : Stor) (P : Params W) (μ : Mapping) (fn : List Byte) (p : Nat) (ft : FileType)
    (h : ∀ f, usedType μ fn p ft = .ok f → ¬ TextType f) : Stays (fReadCsr E st P μ fn p ft) := by
  unfold fReadCsr
  refine .blift fun f hf => ?_
  split
  · exact .using (fReadCooFmt_stays E _ P _ μ p f (h f hf)) fun cp => .bind (fConvertCoo_stays E st P.stor _ _ P.T P.wk.wgt _) fun c => .pure _
  · split
    · exact fReadBinCsr_stays E st P.stor P.T P.lb P.ob P.wk.wgt P.cw μ p
    · rw [if_neg (fun e => h f hf (.inr (.inr e)))]
      exact .run _

theorem fReadCoo_stays (E : Env) (s : Storage) (P : Params W) (cfg : Cfg) (μ : Mapping) (fn : List Byte) (p : Nat) (ft : FileType)
    (h : ∀ f, usedType μ fn p ft = .ok f → ¬ TextType f) : Stays (fReadCoo E s P cfg μ fn p ft) := by
  unfold fReadCoo
  refine .blift fun f hf => ?_
  split
  · exact .bind (fReadCooFmt_stays E _ P _ μ p f (h f hf)) fun cp => .pure _
  · split
    · rename_i hc
      refine .using (fReadCsr_stays E _ P μ fn p f fun g hg => ?_) fun cp => fConvertCsr_stays E s P.stor _ P.T cfg P.wk.wgt _
      have : g = f := by
        rw [usedType, if_neg (by rcases hc with rfl | rfl <;> simp)] at hg
        cases hg; rfl
      exact this ▸ h f hf
    · exact .run _

/-- **C92 (binary files)**: a load from a binary file never ends the process, also with OpenMP: its arrays are allocated outside of the parallel
regions.  (For binary DiGraphs, whose two halves are read by guessing the type again, see `C92_saved_digraph`.) -/
theorem C92_binary (E : Env) (P : Params W) (s : Storage) (st : Stor) (cfg : Cfg) (μ : Mapping) (fn : List Byte) (ft : FileType)
    (h : ∀ f, usedType μ fn 0 ft = .ok f → ¬ TextType f) (L : List Blk) :
    ¬ fReadCoo E s P cfg μ fn 0 ft .ended L ∧ ¬ fReadCsr E st P μ fn 0 ft .ended L ∧ ¬ fReadTensor E s P μ fn 0 ft .ended L ∧
    (usedType μ fn 0 ft ≠ .ok .digraphBin → ¬ fReadDiGraph E st P μ fn ft .ended L) ∧
    (ft = .auto → ¬ fReadMatrix E st P μ fn .ended L) := by
  refine ⟨fReadCoo_stays E s P cfg μ fn 0 ft h L, fReadCsr_stays E st P μ fn 0 ft h L, ?_, fun hd => ?_, ?_⟩
  · refine (show Stays _ from ?_) L
    unfold fReadTensor
    refine .blift fun f hf => ?_
    rw [if_neg (fun e => h f hf (.inl e))]
    split
    · exact .brun _ fun p => .brun _ fun ⟨ls, p⟩ => .brun _ fun ⟨os, p⟩ => .brun _ fun _ => .brun _ fun _ => .brun _ fun p => .brun _ fun ⟨o, p⟩ =>
        .brun _ fun ⟨m, p⟩ => .balloc _ _ (.brun _ fun ⟨c, p⟩ => .brun _ fun ⟨w, _⟩ => .pure _)
    · exact .run _
  · refine (show Stays _ from ?_) L
    unfold fReadDiGraph
    refine .blift fun f hf => ?_
    rw [if_neg (by rintro rfl; exact hd hf)]
    exact .using (fReadCoo_stays E _ P _ μ fn 0 ft h) fun coo => .bind (fTwoGraphs_stays E st.l st P.stor _ _ P.T P.wk.wgt coo) fun g => .pure _
  · rintro rfl
    exact (show Stays _ from .using (fReadCoo_stays E _ P _ μ fn 0 .auto h) fun coo => .bind (fTwoGraphs_stays E st.l st P.stor _ _ P.T P.wk.wgt coo) fun g => .pure _) L

/-! ### Managed storage -/

/-- Only arrays that release themselves are left, and none unless an object is returned. -/
def Neat (p : FR α) : Prop := ∀ z L, p z L → (∀ b ∈ L, b.raw = false) ∧ ((∀ a, z ≠ .out (.ok a)) → L = [])

theorem Neat.run (p : R α) : Neat (FR.run p) := by
  rintro z L ⟨o, _, _, rfl⟩; simp

theorem Neat.pure (a : α) : Neat (Pure.pure a : FR α) := Neat.run _

theorem unwind_nil {L : List Blk} (h : ∀ b ∈ L, b.raw = false) : unwind L = [] := by
  unfold unwind
  rw [List.filter_eq_nil_iff]
  intro b hb; rw [h b hb]; simp

theorem Neat.alloc (E : Env) {bs : List Blk} (h : ∀ b ∈ bs, b.raw = false) : Neat (FR.alloc E bs) := by
  rintro z L (⟨rfl, rfl⟩ | ⟨_, k, _, rfl, rfl⟩)
  · exact ⟨h, fun hz => absurd rfl (hz ())⟩
  · rw [unwind_nil fun b hb => h b (List.mem_of_mem_take hb)]
    simp

theorem Neat.vec (E : Env) : Neat (FR.vec E) := by
  rintro z L ⟨rfl, _⟩; simp

theorem Neat.region (E : Env) {p : FR α} (h : Neat p) : Neat (FR.region E p) := by
  rintro z L ⟨z', L', hp, ⟨_, _, rfl⟩ | ⟨_, rfl, rfl⟩⟩
  · simp
  · exact h _ _ hp

/-- `left` passes on what it is given, or nothing, or what does not release itself. -/
theorem Neat.using {p : FR α} {left : α → M β → List Blk → List Blk} {k : α → FR β} (h : Neat p) (hk : ∀ a, Neat (k a))
    (hl : ∀ a o L, (∀ b ∈ L, b.raw = false) → (∀ b ∈ left a o L, b.raw = false) ∧ ((∀ c, o ≠ .ok c) → left a o L = [])) :
    Neat (FR.using p left k) := by
  rintro z L ⟨z1, L1, hp, hz⟩
  cases z1 with
  | ended => rw [hz.2]; simp
  | out o =>
    cases o with
    | error f =>
      have := (h _ _ hp).2 (by simp)
      rw [hz.2, this]; simp
    | ok a =>
      obtain ⟨L2, h2, rfl⟩ := hz
      have n2 := hk a _ _ h2
      cases z with
      | ended => simp
      | out o =>
        obtain ⟨l1, l2⟩ := hl a o L1 (h _ _ hp).1
        refine ⟨fun b hb => ?_, fun hz => ?_⟩
        · rcases List.mem_append.mp hb with hb | hb
          · exact l1 b hb
          · exact n2.1 b hb
        · show left a o L1 ++ L2 = []
          rw [l2 fun c hc => hz c (by rw [hc]), n2.2 hz]; rfl

theorem neat_keep (o : M β) (L : List Blk) (h : ∀ b ∈ L, b.raw = false) :
    (∀ b ∈ keep o L, b.raw = false) ∧ ((∀ c, o ≠ .ok c) → keep o L = []) := by
  cases o with
  | error f => simp [keep, unwind_nil h]
  | ok c => exact ⟨h, fun hc => absurd rfl (hc c)⟩

theorem Neat.bind {p : FR α} {k : α → FR β} (h : Neat p) (hk : ∀ a, Neat (k a)) : Neat (p >>= k) :=
  Neat.using h hk fun _ o L hL => neat_keep o L hL

theorem Neat.brun (p : R α) {k : α → FR β} (hk : ∀ a, Neat (k a)) : Neat (FR.run p >>= k) := .bind (.run p) hk

theorem Neat.balloc (E : Env) {bs : List Blk} (h : ∀ b ∈ bs, b.raw = false) {k : Unit → FR β} (hk : Neat (k ())) : Neat (FR.alloc E bs >>= k) :=
  .bind (.alloc E h) fun ⟨⟩ => hk

theorem Neat.blift {p : M α} {k : α → FR β} (hk : ∀ a, p = .ok a → Neat (k a)) : Neat (FR.run (R.lift p) >>= k) := by
  rintro z L ⟨z1, L1, ⟨o, rfl, ho, rfl⟩, hz⟩
  cases o with
  | error f => rw [hz.2]; simp
  | ok a =>
    obtain ⟨L2, h2, rfl⟩ := hz
    have := hk a ho.symm _ _ h2
    cases z with
    | ended => simp
    | out o => cases o <;> simpa [keep, unwind] using this

theorem coo_managed {s ws : Storage} (hs : s ≠ .pointer) (hw : ws ≠ .pointer) (wgt : Bool) (m : Nat) : ∀ b ∈ cooBlocks s ws wgt m, b.raw = false := by
  intro b hb
  cases wgt <;> simp [cooBlocks] at hb <;> rcases hb with rfl | rfl | rfl <;> first | exact raw_false hs | exact raw_false hw

theorem csr_managed {st : Stor} {ws : Storage} (h : Managed st ws) (wgt : Bool) (m k : Nat) : ∀ b ∈ csrBlocks st ws wgt m k, b.raw = false := by
  intro b hb
  cases wgt <;> simp [csrBlocks] at hb <;> rcases hb with rfl | rfl | rfl <;>
    first | exact raw_false h.1 | exact raw_false h.2.1 | exact raw_false h.2.2

theorem tensor_managed {s ws : Storage} (hs : s ≠ .pointer) (hw : ws ≠ .pointer) (wgt : Bool) (k m : Nat) :
    ∀ b ∈ tensorBlocks s ws wgt k m, b.raw = false := by
  intro b hb
  cases wgt <;> simp [tensorBlocks] at hb <;> rcases hb with rfl | rfl <;> first | exact raw_false hs | exact raw_false hw

theorem fReadEl_neat (E : Env) {s ws : Storage} (hs : s ≠ .pointer) (hw : ws ≠ .pointer) (μ : Mapping) (lw ow : Nat) (cfg : Cfg) (wk : WKind W) (T : Nat)
    (r : Reader) : Neat (fReadEl E s ws μ lw ow cfg wk T r) := by
  unfold fReadEl
  exact .bind (.vec E) fun _ => .region E (.brun _ fun regions => .brun _ fun counts => .balloc E (coo_managed hs hw _ _) (.run _))

theorem fReadMm_neat (E : Env) {s ws : Storage} (hs : s ≠ .pointer) (hw : ws ≠ .pointer) (μ : Mapping) (lw ow : Nat) (cfg : Cfg) (wk : WKind W) (T : Nat)
    (r : Reader) : Neat (fReadMm E s ws μ lw ow cfg wk T r) := by
  unfold fReadMm
  refine .brun _ fun h => .using (fReadEl_neat E hs hw _ _ _ _ _ _ _) (fun c => .run _) fun c o L hL => ?_
  have hf : ∀ b ∈ freeCoo c L, b.raw = false := by
    unfold freeCoo; split
    · simp
    · exact hL
  cases o with
  | ok a => exact ⟨hL, fun hc => absurd rfl (hc a)⟩
  | error f => simp [checkCoo, unwind_nil hf]

theorem fReadBinCoo_neat (E : Env) {s ws : Storage} (hs : s ≠ .pointer) (hw : ws ≠ .pointer) (T lb ob : Nat) (wgt : Bool) (cw : Codec W) (μ : Mapping)
    (p : Nat) : Neat (fReadBinCoo E s ws T lb ob wgt cw μ p) := by
  unfold fReadBinCoo
  exact .brun _ fun p => .brun _ fun ⟨ls, p⟩ => .brun _ fun ⟨os, p⟩ => .brun _ fun _ => .brun _ fun _ => .brun _ fun ⟨nrows, p⟩ =>
    .brun _ fun ⟨ncols, p⟩ => .brun _ fun ⟨n, p⟩ => .brun _ fun ⟨m, p⟩ => .balloc E (coo_managed hs hw _ _) (.brun _ fun ⟨x, p⟩ => .brun _ fun ⟨y, p⟩ =>
    .brun _ fun ⟨w, p⟩ => .pure _)

theorem fReadBinCsr_neat (E : Env) {st : Stor} {ws : Storage} (h : Managed st ws) (T lb ob : Nat) (wgt : Bool) (cw : Codec W) (μ : Mapping) (p : Nat) :
    Neat (fReadBinCsr E st ws T lb ob wgt cw μ p) := by
  unfold fReadBinCsr
  exact .brun _ fun p => .brun _ fun ⟨ls, p⟩ => .brun _ fun ⟨os, p⟩ => .brun _ fun _ => .brun _ fun _ => .brun _ fun ⟨nrows, p⟩ =>
    .brun _ fun ⟨ncols, p⟩ => .brun _ fun ⟨n, p⟩ => .brun _ fun ⟨m, p⟩ => .balloc E (csr_managed h _ _ _) (.brun _ fun ⟨x, p⟩ => .brun _ fun ⟨y, p⟩ =>
    .brun _ fun ⟨w, p⟩ => .pure _)

theorem fReadGraph_neat (E : Env) {st : Stor} {ws : Storage} (h : Managed st ws) (wgt : Bool) (lw ow T : Nat) (μ : Mapping) (r : Reader) :
    Neat (fReadGraph (W := W) E st ws wgt lw ow T μ r) := by
  unfold fReadGraph
  exact .bind (.vec E) fun _ => .bind (.region E (.brun _ fun p => .balloc E (csr_managed h _ _ _) (.brun _ fun jo => .brun _ fun je => .brun _ fun o =>
    .brun _ fun q => .pure _))) fun pq => .run _

theorem fConvertCsr_neat (E : Env) {s ws : Storage} (hs : s ≠ .pointer) (hw : ws ≠ .pointer) (ow T : Nat) (cfg : Cfg) (wgt : Bool) (c : Csr W) :
    Neat (fConvertCsr E s ws ow T cfg wgt c) := by
  unfold fConvertCsr
  refine .brun _ fun nr => .brun _ fun nc => .brun _ fun m => ?_
  split
  · exact .run _
  · exact .balloc E (coo_managed hs hw _ _) (.brun _ fun j => .brun _ fun its => .brun _ fun th => .brun _ fun mem => .pure _)

theorem fReadCooFmt_neat (E : Env) {s : Storage} (hs : s ≠ .pointer) {P : Params W} (hw : P.stor ≠ .pointer) (cfg : Cfg) (μ : Mapping) (p : Nat)
    (f : FileType) : Neat (fReadCooFmt E s P cfg μ p f) := by
  unfold fReadCooFmt
  split
  · exact .bind (fReadMm_neat E hs hw _ _ _ _ _ _ _) fun c => .pure _
  · split
    · exact .bind (fReadEl_neat E hs hw _ _ _ _ _ _ _) fun c => .pure _
    · exact fReadBinCoo_neat E hs hw _ _ _ _ _ _ _

/-- A CSR that is not loaded through a COO. -/
theorem fReadCsr_neat (E : Env) {st : Stor} {P : Params W} (hm : Managed st P.stor) (μ : Mapping) (fn : List Byte) (p : Nat) (ft : FileType)
    (h : ∀ f, usedType μ fn p ft = .ok f → f ≠ .edgeList ∧ f ≠ .matrixMarket ∧ f ≠ .cooBin) : Neat (fReadCsr E st P μ fn p ft) := by
  unfold fReadCsr
  refine .blift fun f hf => ?_
  obtain ⟨n1, n2, n3⟩ := h f hf
  rw [if_neg (by rintro (h | h | h) <;> contradiction)]
  split
  · exact fReadBinCsr_neat E hm _ _ _ _ _ _ _
  · split
    · split
      · exact .run _
      · exact .bind (fReadGraph_neat E hm _ _ _ _ _ _) fun c => .pure _
    · exact .run _

theorem neat_tempCsr (o : M β) (L : List Blk) (h : ∀ b ∈ L, b.raw = false) :
    (∀ b ∈ tempCsr o L, b.raw = false) ∧ ((∀ c, o ≠ .ok c) → tempCsr o L = []) := by
  cases o <;> simp [tempCsr, unwind_nil h]

theorem fReadCoo_neat (E : Env) {s : Storage} (hs : s ≠ .pointer) {P : Params W} (hw : P.stor ≠ .pointer) (cfg : Cfg) (μ : Mapping) (fn : List Byte)
    (p : Nat) (ft : FileType) : Neat (fReadCoo E s P cfg μ fn p ft) := by
  unfold fReadCoo
  refine .blift fun f hf => ?_
  split
  · exact .bind (fReadCooFmt_neat E hs hw _ _ _ _) fun cp => .pure _
  · split
    · rename_i hc
      refine .using (fReadCsr_neat E ⟨hs, hs, hw⟩ μ fn p f fun g hg => ?_) (fun cp => fConvertCsr_neat E hs hw _ _ _ _ _) fun _ o L hL => neat_tempCsr o L hL
      have : g = f := by
        rw [usedType, if_neg (by rcases hc with rfl | rfl <;> simp)] at hg
        cases hg; rfl
      subst this
      rcases hc with rfl | rfl <;> simp
    · exact .run _

/-- **C92 (managed storage)**: with vectors or shared pointers for labels and weights, a COO or tensor load (of any format) that does not return an object
leaves no array allocated, wherever memory ran out; likewise a CSR load from a binary CSR or a `.graph` file. -/
theorem C92_managed (E : Env) (P : Params W) (hw : P.stor ≠ .pointer) (s : Storage) (hs : s ≠ .pointer) (st : Stor) (hl : st.l ≠ .pointer)
    (ho : st.o ≠ .pointer) (cfg : Cfg) (μ : Mapping) (fn : List Byte) (ft : FileType) :
    (∀ z L, fReadCoo E s P cfg μ fn 0 ft z L → (∀ c, z ≠ .out (.ok c)) → L = []) ∧
    (∀ z L, fReadTensor E s P μ fn 0 ft z L → (∀ c, z ≠ .out (.ok c)) → L = []) ∧
    ((∀ f, usedType μ fn 0 ft = .ok f → f ≠ .edgeList ∧ f ≠ .matrixMarket ∧ f ≠ .cooBin) →
      ∀ z L, fReadCsr E st P μ fn 0 ft z L → (∀ c, z ≠ .out (.ok c)) → L = []) := by
  refine ⟨fun z L h => (fReadCoo_neat E hs hw cfg μ fn 0 ft z L h).2, fun z L h => ?_,
    fun hf z L h => (fReadCsr_neat E ⟨hl, ho, hw⟩ μ fn 0 ft hf z L h).2⟩
  refine ((show Neat (fReadTensor E s P μ fn 0 ft) from ?_) z L h).2
  unfold fReadTensor
  refine .blift fun f hf => ?_
  split
  · exact .bind (.vec E) fun _ => .region E (.brun _ fun q => .balloc E (tensor_managed hs hw _ _ _) (.brun _ fun jc => .brun _ fun jw =>
      .brun _ fun mem => .pure _))
  · split
    · exact .brun _ fun p => .brun _ fun ⟨ls, p⟩ => .brun _ fun ⟨os, p⟩ => .brun _ fun _ => .brun _ fun _ => .brun _ fun p => .brun _ fun ⟨o, p⟩ =>
        .brun _ fun ⟨m, p⟩ => .balloc E (tensor_managed hs hw _ _ _) (.brun _ fun ⟨c, p⟩ => .brun _ fun ⟨w, _⟩ => .pure _)
    · exact .run _

/-! ### Where it fails -/

theorem FR.step_ended {p : R α} {k : α → FR β} {a : α} (h : p (.ok a)) {L : List Blk} (hk : k a .ended L) : (FR.run p >>= k) .ended [] :=
  ⟨.out (.ok a), [], ⟨_, rfl, h, rfl⟩, L, hk, rfl⟩

theorem FR.using_ended {p : FR α} {left : α → M β → List Blk → List Blk} {k : α → FR β} {L : List Blk} (h : p .ended L) : FR.using p left k .ended [] :=
  ⟨.ended, L, h, rfl, rfl⟩

theorem FR.bind_ended {p : FR α} {k : α → FR β} {L : List Blk} (h : p .ended L) : (p >>= k) .ended [] := FR.using_ended h

theorem FR.vec_ended {E : Env} {k : Unit → FR β} {L : List Blk} (h : k () .ended L) : (FR.vec E >>= k) .ended [] :=
  ⟨.out (.ok ()), [], ⟨rfl, .inl rfl⟩, L, h, rfl⟩

theorem FR.step_out {p : R α} {k : α → FR β} {a : α} (h : p (.ok a)) {o : M β} {L : List Blk} (hk : k a (.out o) L) : (FR.run p >>= k) (.out o) L :=
  ⟨.out (.ok a), [], ⟨_, rfl, h, rfl⟩, L, hk, by cases o <;> rfl⟩

theorem FR.alloc_out (E : Env) {bs : List Blk} {k : Unit → FR β} {o : M β} {L : List Blk} (hk : k () (.out o) L) :
    (FR.alloc E bs >>= k) (.out o) (keep o bs ++ L) :=
  ⟨.out (.ok ()), bs, .inl ⟨rfl, rfl⟩, L, hk, rfl⟩

/-- An allocation that fails. -/
theorem FR.alloc_fails {omp : Bool} {b : Blk} {bs : List Blk} {k : Unit → FR β} :
    (FR.alloc ⟨omp, true⟩ (b :: bs) >>= k) (.out (.error .error)) [] :=
  ⟨.out (.error .error), [], .inr ⟨rfl, 0, by simp, rfl, rfl⟩, rfl, rfl⟩

theorem TR.step_ok {p : R α} {k : α → TR β} {b : β} {L : List Blk} (h : (TR.run p >>= k) (.ok b) L) : ∃ a, p (.ok a) ∧ k a (.ok b) L := by
  obtain ⟨o, L1, ⟨ho, rfl⟩, h⟩ := h
  cases o with
  | error f => cases h.1
  | ok a =>
    obtain ⟨L2, h, rfl⟩ := h
    exact ⟨a, ho, h⟩

theorem TR.alloc_ok {bs : List Blk} {k : Unit → TR β} {b : β} {L : List Blk} (h : (TR.alloc bs >>= k) (.ok b) L) : ∃ L2, k () (.ok b) L2 ∧ L = bs ++ L2 := by
  obtain ⟨o, L1, ⟨rfl, rfl⟩, L2, h, rfl⟩ := h
  exact ⟨L2, h, rfl⟩

theorem TR.using_ok {p : TR α} {left : α → M β → List Blk → List Blk} {k : α → TR β} {b : β} {L : List Blk} (h : TR.using p left k (.ok b) L) :
    ∃ a L1, p (.ok a) L1 := by
  obtain ⟨o, L1, ho, h⟩ := h
  cases o with
  | error f => cases h.1
  | ok a => exact ⟨a, L1, ho⟩

theorem TR.bind_ok {p : TR α} {k : α → TR β} {b : β} {L : List Blk} (h : (p >>= k) (.ok b) L) : ∃ a L1, p (.ok a) L1 := TR.using_ok h

/-- A region whose body throws. -/
theorem FR.region_ends {short : Bool} {p : FR α} {L : List Blk} (h : p (.out (.error .error)) L) : FR.region ⟨true, short⟩ p .ended [] :=
  ⟨_, _, h, .inl ⟨⟨rfl, .inl rfl⟩, rfl, rfl⟩⟩

theorem cooBlocks_cons (s ws : Storage) (wgt : Bool) (m : Nat) : ∃ b bs, cooBlocks s ws wgt m = b :: bs := ⟨_, _, rfl⟩

theorem fReadEl_ends (s s' ws : Storage) (μ : Mapping) (lw ow : Nat) (cfg : Cfg) (wk : WKind W) (T : Nat) (r : Reader) (c : Coo W) (L : List Blk)
    (h : tReadEl s' ws μ lw ow cfg wk T r (.ok c) L) : fReadEl ⟨true, true⟩ s ws μ lw ow cfg wk T r .ended [] := by
  unfold tReadEl at h
  obtain ⟨regions, h1, h⟩ := TR.step_ok h
  obtain ⟨counts, h2, h⟩ := TR.step_ok h
  unfold fReadEl
  refine FR.vec_ended (FR.region_ends (L := []) (FR.step_out h1 (FR.step_out h2 ?_)))
  rw [cooBlocks, List.cons_append]
  exact FR.alloc_fails

theorem fReadMm_ends (s s' ws : Storage) (μ : Mapping) (lw ow : Nat) (cfg : Cfg) (wk : WKind W) (T : Nat) (r : Reader) (c : Coo W) (L : List Blk)
    (h : tReadMm s' ws μ lw ow cfg wk T r (.ok c) L) : fReadMm ⟨true, true⟩ s ws μ lw ow cfg wk T r .ended [] := by
  unfold tReadMm at h
  obtain ⟨hd, h1, h⟩ := TR.step_ok h
  obtain ⟨c', L1, h⟩ := TR.using_ok h
  unfold fReadMm
  exact FR.step_ended h1 (FR.using_ended (fReadEl_ends s s' ws μ lw ow cfg wk T hd.2.2.2 c' L1 h))

theorem fReadCooFmt_ends (s s' : Storage) (P : Params W) (cfg : Cfg) (μ : Mapping) (p : Nat) (f : FileType) (hf : f = .edgeList ∨ f = .matrixMarket)
    (c : Coo W × Nat) (L : List Blk) (h : tReadCooFmt s' P cfg μ p f (.ok c) L) : fReadCooFmt ⟨true, true⟩ s P cfg μ p f .ended [] := by
  rcases hf with rfl | rfl
  · simp only [tReadCooFmt, reduceCtorEq, if_false, if_true] at h
    simp only [fReadCooFmt, reduceCtorEq, if_false, if_true]
    obtain ⟨c', L', h⟩ := TR.bind_ok h
    exact FR.bind_ended (fReadEl_ends s s' P.stor μ (8 * P.lb) (8 * P.ob) cfg P.wk P.T (readerAt μ p) c' L' h)
  · simp only [tReadCooFmt, if_true] at h
    simp only [fReadCooFmt, if_true]
    obtain ⟨c', L', h⟩ := TR.bind_ok h
    exact FR.bind_ended (fReadMm_ends s s' P.stor μ (8 * P.lb) (8 * P.ob) cfg P.wk P.T (readerAt μ p) c' L' h)

/-- **C92 violated (text files)**: with OpenMP, loading any edge list or Matrix Market file that can be loaded ends the process when the memory for the
arrays is missing: `allocate_()` throws inside the parallel region. -/
theorem C92_text_violated (s : Storage) (st : Stor) (P : Params W) (cfg : Cfg) (μ : Mapping) (fn : List Byte) (ft : FileType)
    (hf : ft = .edgeList ∨ ft = .matrixMarket) :
    ((∃ c, (readCoo P cfg μ fn 0 ft).Out (.ok c)) → ∃ L, fReadCoo ⟨true, true⟩ s P cfg μ fn 0 ft .ended L) ∧
    ((∃ c, (readCsr P μ fn 0 ft).Out (.ok c)) → ∃ L, fReadCsr ⟨true, true⟩ st P μ fn 0 ft .ended L) := by
  have hu : usedType μ fn 0 ft = .ok ft := by rcases hf with rfl | rfl <;> rfl
  have hc : ft = .matrixMarket ∨ ft = .edgeList ∨ ft = .cooBin := by rcases hf with rfl | rfl <;> simp
  constructor
  · rintro ⟨c, h⟩
    obtain ⟨L, h⟩ := ((C84_same_outcomes P s st cfg μ fn ft).1 _).mpr h
    unfold tReadCoo at h
    obtain ⟨f, h1, h'⟩ := TR.step_ok h
    clear h
    have : f = ft := by rw [hu] at h1; cases h1; rfl
    subst this
    rw [if_pos hc] at h'
    obtain ⟨cp, L1, h⟩ := TR.bind_ok h'
    refine ⟨[], ?_⟩
    unfold fReadCoo
    refine FR.step_ended h1 (L := []) ?_
    rw [if_pos hc]
    exact FR.bind_ended (fReadCooFmt_ends s s P cfg μ 0 f hf cp L1 h)
  · rintro ⟨c, h⟩
    obtain ⟨L, h⟩ := ((C84_same_outcomes P s st cfg μ fn ft).2.1 _).mpr h
    unfold tReadCsr at h
    obtain ⟨f, h1, h'⟩ := TR.step_ok h
    clear h
    have : f = ft := by rw [hu] at h1; cases h1; rfl
    subst this
    rw [if_pos hc] at h'
    obtain ⟨cp, L1, h⟩ := TR.using_ok h'
    refine ⟨[], ?_⟩
    unfold fReadCsr
    refine FR.step_ended h1 (L := []) ?_
    rw [if_pos hc]
    exact FR.using_ended (fReadCooFmt_ends .pointer .pointer P {} μ 0 f hf cp L1 h)

/-- C92 violated, `.graph` files. -/
theorem C92_graph_violated (s : Storage) (st : Stor) (P : Params W) (μ : Mapping) (fn : List Byte) (h : ∃ c, (readCsr P μ fn 0 .graph).Out (.ok c)) :
    ∃ L, fReadCsr ⟨true, true⟩ st P μ fn 0 .graph .ended L := by
  obtain ⟨c, h⟩ := h
  obtain ⟨L, h⟩ := ((C84_same_outcomes P s st {} μ fn .graph).2.1 _).mpr h
  unfold tReadCsr at h
  obtain ⟨f, h1, h⟩ := TR.step_ok h
  have : f = .graph := by cases h1; rfl
  subst this
  simp only [reduceCtorEq, or_self, if_false, if_true] at h
  refine ⟨[], ?_⟩
  unfold fReadCsr
  refine FR.step_ended h1 (L := []) ?_
  simp only [reduceCtorEq, or_self, if_false, if_true]
  split at h
  · obtain ⟨h, _⟩ := h; cases h
  · rename_i hw
    rw [if_neg hw]
    obtain ⟨c', L', h⟩ := TR.bind_ok h
    unfold tReadGraph at h
    obtain ⟨p, h2, h⟩ := TR.step_ok h
    unfold fReadGraph
    refine FR.bind_ended (L := []) (FR.vec_ended (L := []) (FR.bind_ended (L := []) (FR.region_ends (L := []) (FR.step_out h2 ?_))))
    rw [csrBlocks, List.cons_append, List.cons_append]
    exact FR.alloc_fails

/-- C92 violated, tensors from text. -/
theorem C92_tensor_violated (s : Storage) (P : Params W) (μ : Mapping) (fn : List Byte) (h : ∃ c, (readTensor P μ fn 0 .edgeList).Out (.ok c)) :
    ∃ L, fReadTensor ⟨true, true⟩ s P μ fn 0 .edgeList .ended L := by
  obtain ⟨c, h⟩ := h
  obtain ⟨L, h⟩ := ((C84_same_outcomes P s ⟨s, s⟩ {} μ fn .edgeList).2.2.2.2 _).mpr h
  unfold tReadTensor at h
  obtain ⟨f, h1, h⟩ := TR.step_ok h
  have : f = .edgeList := by cases h1; rfl
  subst this
  rw [if_pos rfl] at h
  obtain ⟨q, h2, h⟩ := TR.step_ok h
  refine ⟨[], ?_⟩
  unfold fReadTensor
  refine FR.step_ended h1 (L := []) ?_
  rw [if_pos rfl]
  refine FR.vec_ended (L := []) (FR.region_ends (L := []) (FR.step_out h2 ?_))
  rw [tensorBlocks, List.cons_append]
  exact FR.alloc_fails

/-- Where the second of two arrays cannot be allocated. -/
theorem FR.alloc_fails_second {omp : Bool} {a b : Blk} {bs : List Blk} {k : Unit → FR β} :
    (FR.alloc ⟨omp, true⟩ (a :: b :: bs) >>= k) (.out (.error .error)) (unwind [a]) :=
  ⟨.out (.error .error), unwind [a], .inr ⟨rfl, 1, by simp, rfl, rfl⟩, rfl, rfl⟩

/-- **C92 violated (raw pointers)**: with the default storage, loading any binary COO leaves `x` allocated when the memory for `y` is missing; the caller
gets an exception and no object that could be freed. -/
theorem C92_raw_violated (omp : Bool) (P : Params W) (cfg : Cfg) (μ : Mapping) (fn : List Byte) (c : Coo W)
    (h : (readCoo P cfg μ fn 0 .cooBin).Out (.ok c)) :
    fReadCoo ⟨omp, true⟩ .pointer P cfg μ fn 0 .cooBin (.out (.error .error)) [⟨.x, c.m, true⟩] := by
  obtain ⟨L, h⟩ := ((C84_same_outcomes P .pointer ⟨.pointer, .pointer⟩ cfg μ fn .cooBin).1 _).mpr h
  unfold tReadCoo at h
  obtain ⟨f, h1, h⟩ := TR.step_ok h
  have : f = .cooBin := by cases h1; rfl
  subst this
  simp only [reduceCtorEq, or_true, if_true] at h
  unfold fReadCoo
  refine FR.step_out h1 ?_
  simp only [reduceCtorEq, or_true, if_true]
  obtain ⟨o, L1, ht, hz⟩ := h
  cases o with
  | error f => cases hz.1
  | ok cp =>
    obtain ⟨L2, ⟨hz, _⟩, _⟩ := hz
    cases hz
    simp only [tReadCooFmt, reduceCtorEq, if_false] at ht
    unfold tReadBinCoo at ht
    obtain ⟨p, a1, ht⟩ := TR.step_ok ht
    obtain ⟨⟨ls, p⟩, a2, ht⟩ := TR.step_ok ht
    obtain ⟨⟨os, p⟩, a3, ht⟩ := TR.step_ok ht
    obtain ⟨_, a4, ht⟩ := TR.step_ok ht
    obtain ⟨_, a5, ht⟩ := TR.step_ok ht
    obtain ⟨⟨nrows, p⟩, a6, ht⟩ := TR.step_ok ht
    obtain ⟨⟨ncols, p⟩, a7, ht⟩ := TR.step_ok ht
    obtain ⟨⟨n, p⟩, a8, ht⟩ := TR.step_ok ht
    obtain ⟨⟨m, p⟩, a9, ht⟩ := TR.step_ok ht
    have hm : cp.1.m = m := by
      obtain ⟨L3, ht, _⟩ := TR.alloc_ok ht
      obtain ⟨⟨x, p⟩, _, ht⟩ := TR.step_ok ht
      obtain ⟨⟨y, p⟩, _, ht⟩ := TR.step_ok ht
      obtain ⟨⟨w, p⟩, _, ht⟩ := TR.step_ok ht
      obtain ⟨ht, _⟩ := ht
      cases ht; rfl
    simp only [fReadCooFmt, reduceCtorEq, if_false]
    refine ⟨.out (.error .error), [⟨.x, cp.1.m, true⟩], ?_, rfl, rfl⟩
    unfold fReadBinCoo
    refine FR.step_out a1 (FR.step_out a2 (FR.step_out a3 (FR.step_out a4 (FR.step_out a5 (FR.step_out a6 (FR.step_out a7 (FR.step_out a8
      (FR.step_out a9 ?_))))))))
    rw [hm]
    exact FR.alloc_fails_second (bs := if P.wk.wgt then [⟨.w, m, P.stor.raw⟩] else [])

/-- A binary COO that can be loaded with enough memory can also be loaded when memory is short. -/
theorem fReadBinCoo_ok (E : Env) (s ws : Storage) (T lb ob : Nat) (wgt : Bool) (cw : Codec W) (μ : Mapping) (p : Nat) (cp : Coo W × Nat) (L : List Blk)
    (ht : tReadBinCoo s ws T lb ob wgt cw μ p (.ok cp) L) :
    fReadBinCoo E s ws T lb ob wgt cw μ p (.out (.ok cp)) (cooBlocks s ws wgt cp.1.m) := by
  unfold tReadBinCoo at ht
  obtain ⟨p, a1, ht⟩ := TR.step_ok ht
  obtain ⟨⟨ls, p⟩, a2, ht⟩ := TR.step_ok ht
  obtain ⟨⟨os, p⟩, a3, ht⟩ := TR.step_ok ht
  obtain ⟨_, a4, ht⟩ := TR.step_ok ht
  obtain ⟨_, a5, ht⟩ := TR.step_ok ht
  obtain ⟨⟨nrows, p⟩, a6, ht⟩ := TR.step_ok ht
  obtain ⟨⟨ncols, p⟩, a7, ht⟩ := TR.step_ok ht
  obtain ⟨⟨n, p⟩, a8, ht⟩ := TR.step_ok ht
  obtain ⟨⟨m, p⟩, a9, ht⟩ := TR.step_ok ht
  obtain ⟨L3, ht, _⟩ := TR.alloc_ok ht
  obtain ⟨⟨x, p⟩, b1, ht⟩ := TR.step_ok ht
  obtain ⟨⟨y, p⟩, b2, ht⟩ := TR.step_ok ht
  obtain ⟨⟨w, p⟩, b3, ht⟩ := TR.step_ok ht
  obtain ⟨ht, _⟩ := ht
  cases ht
  unfold fReadBinCoo
  refine FR.step_out a1 (FR.step_out a2 (FR.step_out a3 (FR.step_out a4 (FR.step_out a5 (FR.step_out a6 (FR.step_out a7 (FR.step_out a8
    (FR.step_out a9 ?_))))))))
  refine ⟨.out (.ok ()), cooBlocks s ws wgt m, .inl ⟨rfl, rfl⟩, [], FR.step_out b1 (FR.step_out b2 (FR.step_out b3 ⟨_, rfl, rfl, rfl⟩)), ?_⟩
  show _ = cooBlocks s ws wgt m ++ []
  rw [List.append_nil]

/-- **C92 violated (conversions)**: with managed storage too, loading a CSR from any binary COO leaves arrays allocated when memory is missing: the COO in
between has raw pointers, and of the working arrays of the conversion, allocated by `new`, the first is left when the second is missing. -/
theorem C92_csr_violated (omp : Bool) (st : Stor) (P : Params W) (hm : Managed st P.stor) (μ : Mapping) (fn : List Byte) (c : Coo W)
    (h : (readCoo P {} μ fn 0 .cooBin).Out (.ok c)) :
    fReadCsr ⟨omp, true⟩ st P μ fn 0 .cooBin (.out (.error .error)) [⟨.x, c.m, true⟩, ⟨.y, c.m, true⟩] ∧
    fReadCsr ⟨omp, true⟩ st P μ fn 0 .cooBin (.out (.error .error)) [⟨.x, c.m, true⟩, ⟨.y, c.m, true⟩, ⟨.work, c.n, true⟩] := by
  obtain ⟨L, h⟩ := ((C84_same_outcomes P .pointer st {} μ fn .cooBin).1 _).mpr h
  unfold tReadCoo at h
  obtain ⟨f, h1, h⟩ := TR.step_ok h
  have : f = .cooBin := by cases h1; rfl
  subst this
  simp only [reduceCtorEq, or_true, if_true] at h
  obtain ⟨o, L1, ht, hz⟩ := h
  cases o with
  | error f => cases hz.1
  | ok cp =>
    obtain ⟨L2, ⟨hz, _⟩, _⟩ := hz
    cases hz
    simp only [tReadCooFmt, reduceCtorEq, if_false] at ht
    have hf : fReadCooFmt ⟨omp, true⟩ .pointer P {} μ 0 .cooBin (.out (.ok cp)) (cooBlocks .pointer P.stor P.wk.wgt cp.1.m) := by
      simp only [fReadCooFmt, reduceCtorEq, if_false]
      exact fReadBinCoo_ok _ _ _ _ _ _ _ _ _ _ _ _ ht
    have hu : unwind (cooBlocks .pointer P.stor P.wk.wgt cp.1.m) = [⟨.x, cp.1.m, true⟩, ⟨.y, cp.1.m, true⟩] := by
      cases P.wk.wgt <;> simp [unwind, cooBlocks, hm.2.2, Storage.raw]
    have key : ∀ L, fConvertCoo ⟨omp, true⟩ st P.stor (8 * P.lb) (8 * P.ob) P.T P.wk.wgt cp.1 (.out (.error .error)) L →
        fReadCsr ⟨omp, true⟩ st P μ fn 0 .cooBin (.out (.error .error)) ([⟨.x, cp.1.m, true⟩, ⟨.y, cp.1.m, true⟩] ++ L) := by
      intro L hL
      unfold fReadCsr
      refine FR.step_out h1 ?_
      simp only [reduceCtorEq, or_true, if_true]
      refine ⟨.out (.ok cp), _, hf, L, ⟨_, _, hL, rfl, rfl⟩, ?_⟩
      show _ = unwind _ ++ L
      rw [hu]
    have hcsr := unwind_csr hm P.wk.wgt cp.1.m (plusOne (8 * P.lb) cp.1.n)
    refine ⟨key [] ?_, key [⟨.work, cp.1.n, true⟩] ?_⟩
    · unfold fConvertCoo
      exact FR.alloc_fails (bs := (if P.wk.wgt then [⟨.weights, cp.1.m, P.stor.raw⟩] else []) ++ [⟨.offsets, plusOne (8 * P.lb) cp.1.n, st.o.raw⟩])
    · unfold fConvertCoo
      have := FR.alloc_out (β := Csr W) ⟨omp, true⟩ (bs := csrBlocks st P.stor P.wk.wgt cp.1.m (plusOne (8 * P.lb) cp.1.n))
        (k := fun _ => FR.using (FR.alloc ⟨omp, true⟩ [⟨.work, cp.1.n, true⟩, ⟨.work, P.T, true⟩, ⟨.work, cp.1.n, true⟩]) (fun _ _ _ => [])
          (fun _ => FR.run (convertCoo (8 * P.lb) (8 * P.ob) P.T P.wk.wgt cp.1))) (o := .error .error) (L := [⟨.work, cp.1.n, true⟩])
        ⟨.out (.error .error), _, .inr ⟨rfl, 1, by simp, rfl, rfl⟩, rfl, rfl⟩
      rwa [show keep (.error .error : M (Csr W)) (csrBlocks st P.stor P.wk.wgt cp.1.m (plusOne (8 * P.lb) cp.1.n)) = [] from hcsr, List.nil_append] at this

/-! ### Files that meet the hypotheses -/

/-- Every saved COO can be loaded. -/
theorem saved_loads [Nonempty W] (P : Params W) (T : Nat) (hT : 0 < T) (hT' : 0 < P.T) (hlb : P.lb < 256) (hob : P.ob < 256) (cfg : Cfg)
    (c : Coo W) (h : Spec.FitsCoo P.lb P.ob P.wk.wgt P.cw c) (pad : Nat) (fn : List Byte) :
    ∃ bs, (saveCoo T P.lb P.ob P.wk.wgt P.cw c).Out (.ok bs) ∧ (readCoo P cfg ⟨bs, pad⟩ fn 0 .cooBin).Out (.ok c) := by
  obtain ⟨o, ho⟩ := (C87_store T hT P.lb P.ob P.wk.wgt P.cw ⟨P.wk.wgt, fun _ => 0, fun _ _ => .ok ([], 0)⟩ c
    ⟨[], [], [], 0, 0, 0, 0⟩ ⟨⟨[], [], [], 0, 0, 0, 0⟩, ⟨[], [], [], 0, 0, 0, 0⟩⟩ ⟨[], [], 0, 0⟩).1
  obtain ⟨bs, rfl, _⟩ := saveCoo_all hT P.cw h o ho
  obtain ⟨o2, ho2⟩ := (C87_load P hT' cfg ⟨bs, pad⟩ fn 0 .cooBin).1
  obtain ⟨r, rfl, rfl⟩ := C37_coo_roundtrip P T hT hT' hlb hob cfg c h fn pad .cooBin (.inr rfl) o2 ⟨_, ho, ho2⟩
  exact ⟨bs, ho, ho2⟩

/-- A weighted COO of three entries, saved by three threads: the hypotheses of `C92_raw_violated` and, with vectors, `C92_csr_violated` are met. -/
example : ∃ bs, (readCoo { T := 4, lb := 4, ob := 8, wk := wSint 32, cw := codecInt 4 (by decide), stor := .vector } {} ⟨bs, 7⟩ (str "a.bin") 0 .cooBin).Out
    (.ok binCoo) ∧ Managed ⟨.vector, .vector⟩ .vector :=
  let ⟨bs, _, h⟩ := saved_loads { T := 4, lb := 4, ob := 8, wk := wSint 32, cw := codecInt 4 (by decide), stor := .vector } 3 (by decide) (by decide)
    (by decide) (by decide) {} binCoo binCoo_fits 7 (str "a.bin")
  ⟨bs, h, by decide, by decide, by decide⟩

/-- Every unweighted edge list as in C08 can be loaded, so that `C92_text_violated` applies to it. -/
theorem edgeList_loads (P : Params Unit) (hP : P.wk = wNone) (hT : 0 < P.T) (μ : Mapping) (hpad : 0 < μ.pad) (fn : List Byte) (hok : Spec.EdgeListOk μ.bytes)
    (hlab : ∀ e ∈ Spec.edges μ.bytes, e.1 < 2 ^ (8 * P.lb) ∧ e.2 < 2 ^ (8 * P.lb)) (hm : (Spec.edges μ.bytes).length < 2 ^ (8 * P.ob)) :
    ∃ c, (readCoo P {} μ fn 0 .edgeList).Out (.ok c) ∧ c.m = (Spec.edges μ.bytes).length := by
  obtain ⟨o, ho⟩ := (C87_load P hT {} μ fn 0 .edgeList).1
  obtain ⟨o1, h1, h⟩ := ho
  cases h1
  simp only [reduceCtorEq, or_false, or_true, if_true, readCooFmt, if_false] at h
  obtain ⟨o2, ⟨o3, h3, h2⟩, h⟩ := h
  rw [hP] at h3
  obtain ⟨c, rfl, _, _, hc⟩ := C08_edge_list_entries μ hpad _ _ P.T hT hok hlab hm o3 h3
  have h2 : o2 = .ok (c, 0) := h2
  subst h2
  have h : o = .ok c := h
  subst h
  refine ⟨c, ⟨_, rfl, ?_⟩, hc⟩
  simp only [reduceCtorEq, or_false, or_true, if_true, readCooFmt, if_false]
  exact ⟨_, ⟨_, by rw [hP]; exact h3, rfl⟩, rfl⟩

/-- An edge list of four lines: it can be loaded, and with OpenMP its load can end the process. -/
example (P : Params Unit) (hP : P = { oneThread with T := 3, lb := 4, ob := 8, wk := wNone }) :
    (∃ c, (readCoo P {} exFile (str "a.txt") 0 .edgeList).Out (.ok c)) ∧ ∃ L, fReadCoo ⟨true, true⟩ .vector P {} exFile (str "a.txt") 0 .edgeList .ended L := by
  subst hP
  obtain ⟨c, h, _⟩ := edgeList_loads { oneThread with T := 3, lb := 4, ob := 8, wk := wNone } rfl (by decide) exFile (by decide) (str "a.txt") exFile_ok
    (by rw [exFile_edges]; decide) (by rw [exFile_edges]; decide)
  exact ⟨⟨c, h⟩, (C92_text_violated .vector ⟨.vector, .vector⟩ _ {} exFile (str "a.txt") .edgeList (.inl rfl)).1 ⟨c, h⟩⟩

end Pigo
