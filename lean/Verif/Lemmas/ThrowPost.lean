import Verif.Lemmas.ThrowErase
import Verif.Spec.Throw

/-!
# What the loaders leave behind
-/

namespace Pigo

open Spec

variable {α β W : Type}

theorem Spec.NothingLeft.nil : NothingLeft [] := fun _ h => nomatch h
theorem Spec.NothingLeft.append {a b : List Blk} (ha : NothingLeft a) (hb : NothingLeft b) : NothingLeft (a ++ b) :=
  fun x hx => (List.mem_append.mp hx).elim (ha x) (hb x)
theorem Spec.NothingLeft.unwind {a : List Blk} (ha : NothingLeft a) : NothingLeft (unwind a) :=
  fun x hx => ha x (List.mem_filter.mp hx).1

theorem unwind_append (a b : List Blk) : unwind (a ++ b) = unwind a ++ unwind b := by unfold unwind; exact List.filter_append ..

theorem raw_false {s : Storage} (h : s ≠ .pointer) : s.raw = false := by cases s <;> first | rfl | exact absurd rfl h

theorem unwind_coo {s ws : Storage} (hs : s ≠ .pointer) (hw : ws ≠ .pointer) (wgt : Bool) (m : Nat) :
    unwind (cooBlocks s ws wgt m) = [] := by
  cases wgt <;> simp [unwind, cooBlocks, raw_false hs, raw_false hw]

theorem unwind_csr {st : Stor} {ws : Storage} (h : Managed st ws) (wgt : Bool) (m k : Nat) :
    unwind (csrBlocks st ws wgt m k) = [] := by
  cases wgt <;> simp [unwind, csrBlocks, raw_false h.1, raw_false h.2.1, raw_false h.2.2]

theorem coo_empty (s ws : Storage) (wgt : Bool) {m : Nat} (h : ¬ m > 0) : NothingLeft (cooBlocks s ws wgt m) := by
  have : m = 0 := by omega
  subst this
  intro b hb
  cases wgt <;> simp [cooBlocks] at hb
  · rcases hb with rfl | rfl <;> rfl
  · rcases hb with rfl | rfl | rfl <;> rfl

/-! ### Lengths -/

theorem store_length {a a' : List α} {i : Nat} {v : α} (h : store a i v = .ok a') : a'.length = a.length := by
  unfold store at h
  split at h
  · cases h; simp
  · cases h

theorem runActs_length {l : List (Nat × α)} {a a' : List α} (h : runActs storeAct l a = .ok a') : a'.length = a.length := by
  induction l generalizing a with
  | nil => cases h; rfl
  | cons p l ih =>
    unfold runActs at h
    cases h1 : storeAct p a with
    | error f => rw [h1] at h; cases h
    | ok b => rw [h1] at h; rw [ih h]; exact store_length h1

theorem runSum_length {l : List ((Nat × α) ⊕ (Nat × β))} {o a : List α} {d b : List β}
    (h : runActs (sumStep storeAct storeAct) l (o, d) = .ok (a, b)) : a.length = o.length := by
  induction l generalizing o d with
  | nil => cases h; rfl
  | cons x l ih =>
    rw [runActs] at h
    cases x with
    | inl x =>
      cases h1 : storeAct x o with
      | error f => simp only [sumStep, h1, error_bind] at h; cases h
      | ok o' => simp only [sumStep, h1, ok_bind] at h; rw [ih h]; exact store_length h1
    | inr x =>
      cases h1 : storeAct x d with
      | error f => simp only [sumStep, h1, error_bind] at h; cases h
      | ok d' => simp only [sumStep, h1, ok_bind] at h; exact ih h

theorem bind_ok {p : R α} {k : α → R β} {b : β} (h : (p >>= k) (.ok b)) : ∃ a, p (.ok a) ∧ k a (.ok b) := by
  obtain ⟨o, ho, h⟩ := h
  cases o with
  | error f => cases h
  | ok a => exact ⟨a, ho, h⟩

theorem convertCoo_fields {lw ow T : Nat} {wgt : Bool} {coo : Coo W} {c : Csr W} (h : convertCoo lw ow T wgt coo (.ok c)) :
    c.m = coo.m ∧ c.offsets.length = plusOne lw coo.n := by
  unfold convertCoo at h
  obtain ⟨j, _, h⟩ := bind_ok h
  obtain ⟨q, _, h⟩ := bind_ok h
  obtain ⟨off, h1, h⟩ := bind_ok h
  obtain ⟨its, _, h⟩ := bind_ok h
  obtain ⟨s, _, h⟩ := bind_ok h
  cases h
  obtain ⟨sched, _, h1⟩ := h1
  exact ⟨rfl, by rw [runActs_length h1.symm, alloc_length]⟩

theorem readArr_length {T : Nat} {μ : Mapping} {k : Nat} {dec : List Byte → α} {n bytes p : Nat} {q : List α × Nat}
    (h : readArr T μ k dec n bytes p (.ok q)) : q.1.length = n := by
  unfold readArr at h
  obtain ⟨j, _, h⟩ := bind_ok h
  obtain ⟨b, _, h⟩ := bind_ok h
  cases h
  simp [decArr]

/-! ### The loaders -/

theorem readEl_post (s ws : Storage) (μ : Mapping) (lw ow : Nat) (cfg : Cfg) {wk : WKind W} (hw : wk.Calm) (T : Nat) (r : Reader) :
    (tReadEl s ws μ lw ow cfg wk T r).Post NothingLeft (fun c L => L = cooBlocks s ws wk.wgt c.m) := by
  unfold tReadEl
  refine .brun (fun _ _ _ => .nil) fun regions _ => .brun (fun _ _ _ => .nil) fun counts _ => .balloc ?_
  refine .run (fun f hf ht => absurd ht ((R.Calm.pass2 μ lw ow cfg hw ..).calm f hf)) fun c hc => ?_
  unfold readElPass2 at hc
  split at hc
  · cases hc
  · obtain ⟨j, sched, _, h⟩ := hc
    unfold execPlan at h
    cases h1 : runActs stepAct sched _ with
    | error f => rw [h1] at h; cases h
    | ok mem => rw [h1] at h; cases h; rw [List.append_nil]; rfl

theorem mmCheck_m {ow : Nat} {cfg : Cfg} {a b n : Nat} {c c' : Coo W} (h : mmCheck ow cfg a b n c = .ok c') : c'.m = c.m := by
  unfold mmCheck at h
  split at h
  · split at h
    · dsimp only at h
      generalize (if cfg.sym = true then decide (n > twice ow c.m) else if cfg.sl = true then decide (n > c.m) else n != c.m) = q at h
      cases q
      · cases h; rfl
      · cases h
    · cases h
  · cases h

theorem readMm_post (s ws : Storage) (μ : Mapping) (lw ow : Nat) (cfg : Cfg) {wk : WKind W} (hw : wk.Calm) (T : Nat) (r : Reader) :
    (tReadMm s ws μ lw ow cfg wk T r).Post NothingLeft (fun c L => L = cooBlocks s ws wk.wgt c.m) := by
  unfold tReadMm
  refine .brun (fun _ _ _ => .nil) fun h _ => .using (readEl_post s ws μ lw ow cfg hw T _) ?_
  rintro c _ rfl
  refine .run (fun f hf ht g => ?_) fun c' hc => ?_
  · rw [List.append_nil]
    refine NothingLeft.unwind ?_
    unfold freeCoo
    split
    · exact .nil
    · next h => exact coo_empty _ _ _ h
  · rw [mmCheck_m hc.symm, List.append_nil]; rfl

theorem readBinCoo_post (s ws : Storage) (T lb ob : Nat) (wgt : Bool) (cw : Codec W) (μ : Mapping) (p : Nat) :
    (tReadBinCoo s ws T lb ob wgt cw μ p).Post NothingLeft (fun c L => L = cooBlocks s ws wgt c.1.m) := by
  unfold tReadBinCoo
  refine .brun (fun _ _ _ => .nil) fun p _ => .brun (fun _ _ _ => .nil) fun ⟨ls, p⟩ _ => .brun (fun _ _ _ => .nil) fun ⟨os, p⟩ _ =>
    .brun (fun _ _ _ => .nil) fun _ _ => .brun (fun _ _ _ => .nil) fun _ _ => .brun (fun _ _ _ => .nil) fun ⟨nrows, p⟩ _ =>
    .brun (fun _ _ _ => .nil) fun ⟨ncols, p⟩ _ => .brun (fun _ _ _ => .nil) fun ⟨n, p⟩ _ =>
    .brun (fun _ _ _ => .nil) fun ⟨m, p⟩ _ => .balloc ?_
  refine .brun (fun f hf ht => absurd ht ((R.Calm.readArr ..).calm f hf)) fun ⟨x, p⟩ _ =>
    .brun (fun f hf ht => absurd ht ((R.Calm.readArr ..).calm f hf)) fun ⟨y, p⟩ _ =>
    .brun (fun f hf ht => absurd ht ((R.Calm.readWeights ..).calm f hf)) fun ⟨w, p⟩ _ => .pure ?_
  exact List.append_nil _

theorem readBinCsr_post (st : Stor) (ws : Storage) (T lb ob : Nat) (wgt : Bool) (cw : Codec W) (μ : Mapping) (p : Nat) :
    (tReadBinCsr st ws T lb ob wgt cw μ p).Post NothingLeft
      (fun c L => L = csrBlocks st ws wgt c.1.m c.1.offsets.length) := by
  unfold tReadBinCsr
  refine .brun (fun _ _ _ => .nil) fun p _ => .brun (fun _ _ _ => .nil) fun ⟨ls, p⟩ _ => .brun (fun _ _ _ => .nil) fun ⟨os, p⟩ _ =>
    .brun (fun _ _ _ => .nil) fun _ _ => .brun (fun _ _ _ => .nil) fun _ _ => .brun (fun _ _ _ => .nil) fun ⟨nrows, p⟩ _ =>
    .brun (fun _ _ _ => .nil) fun ⟨ncols, p⟩ _ => .brun (fun _ _ _ => .nil) fun ⟨n, p⟩ _ =>
    .brun (fun _ _ _ => .nil) fun ⟨m, p⟩ _ => .balloc ?_
  refine .brun (fun f hf ht => absurd ht ((R.Calm.readArr ..).calm f hf)) fun ⟨x, p⟩ hx =>
    .brun (fun f hf ht => absurd ht ((R.Calm.readArr ..).calm f hf)) fun ⟨y, p⟩ _ =>
    .brun (fun f hf ht => absurd ht ((R.Calm.readWeights ..).calm f hf)) fun ⟨w, p⟩ _ => .pure ?_
  have hx := readArr_length hx
  dsimp only at hx ⊢
  rw [hx, List.append_nil]

theorem convertCoo_post (st : Stor) (ws : Storage) (lw ow T : Nat) (wgt : Bool) (coo : Coo W) (E : List Blk → Prop) :
    (tConvertCoo st ws lw ow T wgt coo).Post E (fun c L => L = csrBlocks st ws wgt c.m c.offsets.length) := by
  unfold tConvertCoo
  refine .balloc (.run (fun f hf ht => absurd ht ((R.Calm.convertCoo ..).calm f hf)) fun c hc => ?_)
  rw [(convertCoo_fields hc).1, (convertCoo_fields hc).2, List.append_nil]

theorem copyCoo_m {T : Nat} {wgt : Bool} {c c' : Coo W} (h : copyCoo T wgt c (.ok c')) : c'.m = c.m := by
  unfold copyCoo at h
  obtain ⟨j, _, h⟩ := bind_ok h
  obtain ⟨its, _, h⟩ := bind_ok h
  obtain ⟨q, _, h⟩ := bind_ok h
  obtain ⟨w, _, h⟩ := bind_ok h
  cases h; rfl

theorem copyCoo_post (s ws : Storage) (T : Nat) (wgt : Bool) (c : Coo W) (E : List Blk → Prop) :
    (tCopyCoo s ws T wgt c).Post E (fun c' L => L = cooBlocks s ws wgt c'.m) := by
  unfold tCopyCoo
  refine .balloc (.run (fun f hf ht => absurd ht ((R.Calm.copyCoo ..).calm f hf)) fun c' hc => ?_)
  rw [copyCoo_m hc, List.append_nil]

theorem readGraph_post (st : Stor) (ws : Storage) (wgt : Bool) (lw ow T : Nat) (μ : Mapping) (r : Reader) :
    (tReadGraph (W := W) st ws wgt lw ow T μ r).Post (fun L => Managed st ws → NothingLeft L)
      (fun c L => L = csrBlocks st ws wgt c.m c.offsets.length) := by
  unfold tReadGraph
  refine .brun (fun _ _ _ _ => .nil) fun p _ => .balloc ?_
  have he : ∀ L, NothingLeft L → (Managed st ws → NothingLeft (unwind (csrBlocks st ws wgt p.m (plusOne lw p.n)) ++ L)) := by
    intro L hL hm
    rw [unwind_csr hm]; exact hL
  refine .brun (fun _ _ _ => he _ .nil) fun jo _ => .brun (fun _ _ _ => he _ .nil) fun je _ =>
    .brun (fun _ _ _ => he _ .nil) fun o ho => .brun (fun _ _ _ => he _ .nil) fun ⟨a, b⟩ hab => .run (fun _ _ _ => he _ .nil) ?_
  intro c hc
  have hlen : a.length = plusOne lw p.n := by
    obtain ⟨sched, hil, hrun⟩ := hab
    have h2 : o.length = plusOne lw p.n := by
      have ho := Eq.symm ho
      unfold graphInit at ho
      cases h1 : runActs storeAct (if p.base = 1 then [(0, 0), (1, 0)] else [(0, 0)]) (alloc jo (plusOne lw p.n)) with
      | error f => rw [h1] at ho; cases ho
      | ok o' =>
        rw [h1] at ho
        rw [store_length ho, runActs_length h1, alloc_length]
    rw [← h2]; exact runSum_length hrun.symm
  have hc := Eq.symm hc
  unfold graphFinish at hc
  split at hc
  · cases hc
  · split at hc
    · cases hc
    · cases hc; dsimp only; rw [List.append_nil, hlen]

theorem convertCsr_post (s ws : Storage) (ow T : Nat) (cfg : Cfg) (wgt : Bool) (c : Csr W) :
    (tConvertCsr s ws ow T cfg wgt c).Post
      (fun L => NothingLeft L ∧ ((!cfg.sym && cfg.ut) = true ∨ cfg.sl = true)) (fun c L => L = cooBlocks s ws wgt c.m) := by
  unfold tConvertCsr
  refine .brun (fun f hf _ => by obtain ⟨_, _, hf⟩ := hf; cases hf) fun nr _ => .brun (fun f hf _ => by obtain ⟨_, _, hf⟩ := hf; cases hf) fun nc _ =>
    .brun (fun f hf _ => ⟨.nil, ?_⟩) fun m _ => ?_
  · by_cases h : (!cfg.sym && cfg.ut) = true
    · exact .inl h
    · exfalso
      have hf := Eq.symm hf
      rw [if_neg h] at hf
      split at hf <;> cases hf
  · split
    · next h => exact .run (fun _ _ _ => ⟨.nil, .inr h⟩) fun _ h => nomatch h
    · refine .balloc ?_
      refine .brun (fun f hf ht => absurd ht ((R.Calm.any _).calm f hf)) fun j _ =>
        .brun (fun f hf ht => absurd ht ((R.Calm.choose _).calm f hf)) fun its _ =>
        .brun (fun f hf ht => absurd ht ((R.Calm.lift (.mapE (fun _ => .mapE (fun _ => .csrRow ..) _) _)).calm f hf)) fun th _ =>
        .brun (fun f hf ht => absurd ht ((R.Calm.par (fun _ _ => .stepAct ..) ..).calm f hf)) fun mem _ => .pure ?_
      exact List.append_nil _

theorem readCooFmt_post (s : Storage) {P : Params W} (hw : P.wk.Calm) (cfg : Cfg) (μ : Mapping) (p : Nat) (ft : FileType) :
    (tReadCooFmt s P cfg μ p ft).Post NothingLeft (fun c L => L = cooBlocks s P.stor P.wk.wgt c.1.m) := by
  unfold tReadCooFmt
  split
  · refine .bind (readMm_post s P.stor μ _ _ cfg hw P.T _) fun c L hL => .pure ?_
    rw [hL, List.append_nil]
  · split
    · refine .bind (readEl_post s P.stor μ _ _ cfg hw P.T _) fun c L hL => .pure ?_
      rw [hL, List.append_nil]
    · exact readBinCoo_post _ _ _ _ _ _ _ _ _

/-- What a successful load of a CSR leaves: its arrays and possibly empty blocks. -/
def CsrLeft (st : Stor) (ws : Storage) (wgt : Bool) (c : Csr W) (L : List Blk) : Prop :=
  ∃ L0, NothingLeft L0 ∧ L = L0 ++ csrBlocks st ws wgt c.m c.offsets.length

/-- What a successful load of a COO leaves: its arrays and possibly empty blocks. -/
def CooLeft (s ws : Storage) (wgt : Bool) (c : Coo W) (L : List Blk) : Prop :=
  ∃ L0, NothingLeft L0 ∧ L = L0 ++ cooBlocks s ws wgt c.m

theorem CooLeft.temp {s ws : Storage} {wgt : Bool} {c : Coo W} {L : List Blk} (h : CooLeft s ws wgt c L) (b : β) :
    NothingLeft (tempCoo c (.ok b : M β) L) := by
  obtain ⟨L0, h0, rfl⟩ := h
  refine NothingLeft.unwind ?_
  unfold freeCoo
  split
  · exact .nil
  · next h => exact h0.append (coo_empty _ _ _ h)

theorem readCsr_post (st : Stor) {P : Params W} (hw : P.wk.Calm) (μ : Mapping) (fn : List Byte) (p : Nat) (ft : FileType) :
    (tReadCsr st P μ fn p ft).Post (fun L => Managed st P.stor ∨ usedType μ fn p ft ≠ .ok .graph → NothingLeft L)
      (fun c L => CsrLeft st P.stor P.wk.wgt c.1 L) := by
  unfold tReadCsr
  refine .brun (fun _ _ _ _ => .nil) fun ft' hft => ?_
  split
  · refine TR.Post.mono (E := NothingLeft) (.using (readCooFmt_post .pointer hw {} μ p ft') ?_) (fun _ h _ => h) (fun _ _ h => h)
    rintro cp _ rfl
    refine .bind (convertCoo_post st P.stor _ _ P.T P.wk.wgt cp.1 _) ?_
    rintro c _ rfl
    refine .pure ?_
    refine ⟨tempCoo cp.1 (.ok (c, cp.2)) (cooBlocks .pointer P.stor P.wk.wgt cp.1.m), ?_, by rw [List.append_nil]⟩
    exact CooLeft.temp ⟨[], .nil, rfl⟩ _
  · split
    · exact (readBinCsr_post _ _ _ _ _ _ _ _ _).mono (fun _ h _ => h) (fun _ _ h => ⟨[], .nil, h⟩)
    · split
      · next hg =>
        subst hg
        split
        · exact .run (fun _ _ _ _ => .nil) fun _ h => nomatch h
        · refine TR.Post.bind (S1 := fun c L => L = csrBlocks st P.stor P.wk.wgt c.m c.offsets.length) ((readGraph_post st P.stor P.wk.wgt _ _ _ _ _).mono (fun L h hc => h ?_) (fun _ _ h => h)) ?_
          · exact hc.resolve_right (fun h => h hft.symm)
          · rintro c _ rfl
            exact .pure ⟨[], .nil, by simp⟩
      · exact .run (fun _ _ _ _ => .nil) fun _ h => nomatch h

theorem usedType_self {μ : Mapping} {fn : List Byte} {p : Nat} {ft ft' : FileType} (h : usedType μ fn p ft = .ok ft') (hg : ft' ≠ .auto) :
    usedType μ fn p ft' = .ok ft' := by unfold usedType; rw [if_neg hg]

theorem readCoo_post (s : Storage) {P : Params W} (hw : P.wk.Calm) (cfg : Cfg) (μ : Mapping) (fn : List Byte) (p : Nat) (ft : FileType) :
    (tReadCoo s P cfg μ fn p ft).Post
      (fun L => (s ≠ .pointer ∧ P.stor ≠ .pointer) ∨ (usedType μ fn p ft ≠ .ok .graph ∧
        (usedType μ fn p ft ≠ .ok .csrBin ∨ ((!cfg.sym && cfg.ut) = false ∧ cfg.sl = false))) → NothingLeft L)
      (fun c L => CooLeft s P.stor P.wk.wgt c L) := by
  unfold tReadCoo
  refine .brun (fun _ _ _ _ => .nil) fun ft' hft => ?_
  split
  · refine TR.Post.mono (E := NothingLeft) (.bind (readCooFmt_post s hw cfg μ p ft') ?_) (fun _ h _ => h) (fun _ _ h => h)
    rintro cp _ rfl
    exact .pure ⟨[], .nil, by simp⟩
  · split
    · next hg =>
      have ha : ft' ≠ .auto := by rintro rfl; rcases hg with h | h <;> cases h
      have hself := usedType_self (hft.symm) ha
      refine .using (S1 := fun c L => CsrLeft ⟨s, s⟩ P.stor P.wk.wgt c.1 L)
        ((readCsr_post ⟨s, s⟩ hw μ fn p ft').mono (fun L h hc => h ?_) (fun _ _ h => h)) ?_
      · rcases hc with hc | hc
        · exact .inl ⟨hc.1, hc.1, hc.2⟩
        · right; rw [hself, show Except.ok ft' = usedType μ fn p ft from hft]; exact hc.1
      · rintro ⟨c, q⟩ L1 ⟨L0, h0, rfl⟩
        refine (convertCsr_post s P.stor _ P.T cfg P.wk.wgt c).mono ?_ ?_
        · rintro L ⟨hL, hthrow⟩ f hc
          show NothingLeft (unwind _ ++ L)
          refine NothingLeft.append ?_ hL
          rw [unwind_append]
          refine h0.unwind.append ?_
          rcases hc with hc | hc
          · rw [unwind_csr ⟨hc.1, hc.1, hc.2⟩]; exact .nil
          · exfalso
            rcases hc.2 with h | h
            · rw [← show Except.ok ft' = usedType μ fn p ft from hft] at h
              rcases hg with hg | hg
              · exact h (by rw [hg])
              · exact hc.1 (by rw [← show Except.ok ft' = usedType μ fn p ft from hft, hg])
            · rcases hthrow with ht | ht
              · rw [h.1] at ht; cases ht
              · rw [h.2] at ht; cases ht
        · rintro c' L rfl
          exact ⟨[], .nil, rfl⟩
    · exact .run (fun _ _ _ _ => .nil) fun _ h => nomatch h

theorem twoGraphs_post (s : Storage) (st : Stor) (ws : Storage) (lw ow T : Nat) (wgt : Bool) (coo : Coo W) (E : List Blk → Prop) :
    (tTwoGraphs s st ws lw ow T wgt coo).Post E
      (fun g L => ∃ L0, NothingLeft L0 ∧
        L = L0 ++ csrBlocks st ws wgt g.1.m g.1.offsets.length ++ csrBlocks st ws wgt g.2.m g.2.offsets.length) := by
  unfold tTwoGraphs
  refine .bind (S1 := fun c L => CsrLeft st ws wgt c L) (.using (copyCoo_post s ws T wgt coo _) ?_) ?_
  · rintro copy _ rfl
    refine (convertCoo_post st ws lw ow T wgt (transposeCoo copy) _).mono (fun _ h => h) ?_
    rintro c _ rfl
    exact ⟨_, CooLeft.temp ⟨[], .nil, rfl⟩ c, rfl⟩
  · rintro a _ ⟨L0, h0, rfl⟩
    refine .bind (convertCoo_post st ws lw ow T wgt coo _) ?_
    rintro b _ rfl
    refine .pure ⟨L0, h0, by simp⟩

end Pigo
