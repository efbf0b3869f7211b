import Verif.Props.Memory
import Verif.Props.AlignGraph

/-!
# C92 for DiGraph files

The two halves of a DiGraph file are CSR files whose types are guessed again.  In a saved file both are recognised, so that the load allocates outside of parallel
regions only.
-/

namespace Pigo

open Spec

variable {α β W : Type}

/-- What the loads of a saved DiGraph find: the magic string, then a CSR recognised as such, loaded as the first graph, then another. -/
theorem saved_digraph_parts (P : Params W) (hT : 0 < P.T) (hlb : P.lb < 256) (hob : P.ob < 256) (g : DiGraph W) (hi : FitsCsr P.lb P.ob P.wk.wgt P.cw g.inG)
    (ho : FitsCsr P.lb P.ob P.wk.wgt P.cw g.outG) (fn : List Byte) (pad : Nat) :
    usedType ⟨digraphFile P.lb P.ob P.wk.wgt P.cw g, pad⟩ fn 0 .auto = .ok .digraphBin ∧
    rdStr ⟨digraphFile P.lb P.ob P.wk.wgt P.cw g, pad⟩ digraphMagic 0 = .ok 15 ∧
    usedType ⟨digraphFile P.lb P.ob P.wk.wgt P.cw g, pad⟩ fn 15 .auto = .ok .csrBin ∧
    (readCsr P ⟨digraphFile P.lb P.ob P.wk.wgt P.cw g, pad⟩ fn 15 .auto).All (fun r => r = (g.inG, 15 + csrSaveSize P.lb P.ob P.wk.wgt P.cw g.inG)) ∧
    usedType ⟨digraphFile P.lb P.ob P.wk.wgt P.cw g, pad⟩ fn (15 + csrSaveSize P.lb P.ob P.wk.wgt P.cw g.inG) .auto = .ok .csrBin ∧
    (readCsr P ⟨digraphFile P.lb P.ob P.wk.wgt P.cw g, pad⟩ fn (15 + csrSaveSize P.lb P.ob P.wk.wgt P.cw g.inG) .auto).All (fun r => r.1 = g.outG) := by
  have hb : digraphFile P.lb P.ob P.wk.wgt P.cw g = digraphMagic ++ csrBytes P.lb P.ob P.wk.wgt P.cw g.inG ++ csrBytes P.lb P.ob P.wk.wgt P.cw g.outG := by
    rw [csrBytes_eq, csrBytes_eq]; rfl
  generalize digraphFile P.lb P.ob P.wk.wgt P.cw g = bs at hb ⊢
  have hr : Rest ⟨bs, pad⟩ 0 (bs ++ List.replicate pad 0) := rest_file
  have hl1 := csrBytes_length P.cw hi
  have hp1 := csrSaveSize_pos P.lb P.ob P.wk.wgt P.cw g.inG
  have hd : digraphMagic.length = 15 := rfl
  rw [show bs ++ List.replicate pad 0 = digraphMagic ++ (csrBytes P.lb P.ob P.wk.wgt P.cw g.inG ++ (csrBytes P.lb P.ob P.wk.wgt P.cw g.outG ++ List.replicate pad 0)) by
    rw [hb]; simp only [List.append_assoc]] at hr
  have h15 : 0 + digraphMagic.length < bs.length := by
    rw [hb]; simp only [List.length_append, hl1]; omega
  have hr1 := hr.next
  rw [hd, Nat.zero_add] at hr1
  have hm : ∀ (c : Csr W) (p : Nat) (pre post : List Byte), bs = pre ++ csrBytes P.lb P.ob P.wk.wgt P.cw c ++ post → pre.length = p →
      HasAt ⟨bs, pad⟩ p csrMagic := by
    intro c p pre post he hp
    obtain ⟨l, hl⟩ := csrBytes_magic P.lb P.ob P.wk.wgt P.cw c
    refine ⟨?_, ?_⟩
    · show _ <+: bs.drop p
      rw [he, hl, ← hp]
      simp only [List.append_assoc, List.drop_left]
      exact List.prefix_append _ _
    · show _ < bs.length
      rw [he, hl]
      simp only [List.length_append, Spec.le, List.length_map, List.length_range]
      omega
  have m1 := hm g.inG 15 digraphMagic _ hb rfl
  have hr2 := hr1.next
  have m2 := hm g.outG (15 + (csrBytes P.lb P.ob P.wk.wgt P.cw g.inG).length) (digraphMagic ++ csrBytes P.lb P.ob P.wk.wgt P.cw g.inG) []
    (by rw [hb, List.append_nil]) (by rw [List.length_append, hd])
  have s1 := readCsr_at P hT hlb hob hi fn hr1 m1 (.inl rfl)
  have s2 := readCsr_at P hT hlb hob ho fn hr2 m2 (.inl rfl)
  rw [hl1] at m2 s1 s2
  refine ⟨?_, rdStr_at hr h15, ?_, s1, ?_, s2.mono fun r hr => by rw [hr]⟩
  · exact C45_magic _ fn 0 (str "PIGO-DiGraph-v1", .digraphBin) (by simp [magics]) ⟨by
      show _ <+: bs.drop 0
      rw [List.drop_zero, hb, List.append_assoc]
      exact List.prefix_append _ _, h15⟩
  · exact C45_magic _ fn 15 (str "PIGO-CSR-v2", .csrBin) (by simp [magics]) m1
  · exact C45_magic _ fn _ (str "PIGO-CSR-v2", .csrBin) (by simp [magics]) m2

theorem fReadCsr_value (E : Env) (st : Stor) {P : Params W} (hw : P.wk.Silent) (μ : Mapping) (fn : List Byte) (p : Nat) (ft : FileType) {a : Csr W × Nat} {L : List Blk}
    (h : fReadCsr E st P μ fn p ft (.out (.ok a)) L) : (readCsr P μ fn p ft).Out (.ok a) := by
  rcases (fReadCsr_tracks st hw μ fn p ft).rel _ L h with ⟨o, L', hz, ho⟩ | ⟨_, hz | ⟨hz, _⟩⟩
  · cases hz
    rw [← tReadCsr_erase st P μ fn p ft]
    exact ⟨L', ho⟩
  · cases hz
  · cases hz

theorem Stays.bindv {p : FR α} {k : α → FR β} (h : Stays p) (hk : ∀ a L, p (.out (.ok a)) L → Stays (k a)) : Stays (p >>= k) := by
  rintro L ⟨z1, L1, hp, hz⟩
  cases z1 with
  | ended => exact h _ hp
  | out o =>
    cases o with
    | error f => cases hz.1
    | ok a =>
      obtain ⟨L2, h2, _⟩ := hz
      exact hk a _ hp _ h2

theorem Neat.bindv {p : FR α} {k : α → FR β} (h : Neat p) (hk : ∀ a L, p (.out (.ok a)) L → Neat (k a)) : Neat (p >>= k) := by
  rintro z L ⟨z1, L1, hp, hz⟩
  refine Neat.bind (p := fun z L => p z L ∧ z = z1) (k := fun a z L => k a z L ∧ p (.out (.ok a)) L1) ?_ ?_ z L ⟨z1, L1, ⟨hp, rfl⟩, ?_⟩
  · exact fun z L hz => h z L hz.1
  · exact fun a z L hz => hk a L1 hz.2 z L hz.1
  · cases z1 with
    | ended => exact hz
    | out o =>
      cases o with
      | error f => exact hz
      | ok a =>
        obtain ⟨L2, h2, h3⟩ := hz
        exact ⟨L2, ⟨h2, hp⟩, h3⟩

/-- **C92 (saved DiGraphs)**: loading a saved DiGraph never ends the process, also with OpenMP; with managed storage, a load that fails for lack of memory leaves
nothing allocated, not even the first graph when the memory for the second is missing. -/
theorem C92_saved_digraph (E : Env) (P : Params W) (hw : P.wk.Silent) (hT : 0 < P.T) (hlb : P.lb < 256) (hob : P.ob < 256) (g : DiGraph W)
    (hi : FitsCsr P.lb P.ob P.wk.wgt P.cw g.inG) (ho : FitsCsr P.lb P.ob P.wk.wgt P.cw g.outG) (fn : List Byte) (pad : Nat) (st : Stor)
    (ft : FileType) (hft : ft = .auto ∨ ft = .digraphBin) :
    (∀ L, ¬ fReadDiGraph E st P ⟨digraphFile P.lb P.ob P.wk.wgt P.cw g, pad⟩ fn ft .ended L) ∧
    (Managed st P.stor → ∀ z L, fReadDiGraph E st P ⟨digraphFile P.lb P.ob P.wk.wgt P.cw g, pad⟩ fn ft z L → (∀ c, z ≠ .out (.ok c)) → L = []) := by
  obtain ⟨u0, h0, u1, s1, u2, s2⟩ := saved_digraph_parts P hT hlb hob g hi ho fn pad
  generalize (⟨digraphFile P.lb P.ob P.wk.wgt P.cw g, pad⟩ : Mapping) = μ at *
  have u0' : usedType μ fn 0 ft = .ok .digraphBin := by
    rcases hft with rfl | rfl
    · exact u0
    · rfl
  have val : ∀ a L, fReadCsr E st P μ fn 15 .auto (.out (.ok a)) L → a.2 = 15 + csrSaveSize P.lb P.ob P.wk.wgt P.cw g.inG := by
    intro a L h
    obtain ⟨b, hb, rfl⟩ := s1 _ (fReadCsr_value E st hw μ fn 15 .auto h)
    cases hb; rfl
  have nt : ¬ TextType .csrBin := by rintro (h | h | h) <;> cases h
  unfold fReadDiGraph
  refine ⟨?_, fun hm z L h => ?_⟩
  · refine (show Stays _ from ?_)
    refine .blift fun f hf => ?_
    rw [u0'] at hf; cases hf
    rw [if_pos rfl]
    refine .blift fun p hp => ?_
    rw [h0] at hp; cases hp
    refine .bindv (fReadCsr_stays E st P μ fn 15 .auto fun f hf => ?_) fun a L h => .bind (fReadCsr_stays E st P μ fn a.2 .auto fun f hf => ?_) fun _ => .pure _
    · rw [u1] at hf; cases hf; exact nt
    · rw [val a L h, u2] at hf; cases hf; exact nt
  · refine ((show Neat _ from ?_) z L h).2
    refine .blift fun f hf => ?_
    rw [u0'] at hf; cases hf
    rw [if_pos rfl]
    refine .blift fun p hp => ?_
    rw [h0] at hp; cases hp
    refine .bindv (fReadCsr_neat E hm μ fn 15 .auto fun f hf => ?_) fun a L h => .bind (fReadCsr_neat E hm μ fn a.2 .auto fun f hf => ?_) fun _ => .pure _
    · rw [u1] at hf; cases hf; simp
    · rw [val a L h, u2] at hf; cases hf; simp

/-- A CSR that can be loaded with enough memory can be loaded when memory is short, or fails at its first array with nothing left. -/
theorem fReadBinCsr_ok (E : Env) (st : Stor) (ws : Storage) (T lb ob : Nat) (wgt : Bool) (cw : Codec W) (μ : Mapping) (p : Nat) (cp : Csr W × Nat)
    (h : (readBinCsr T lb ob wgt cw μ p).Out (.ok cp)) :
    fReadBinCsr E st ws T lb ob wgt cw μ p (.out (.ok cp)) (csrBlocks st ws wgt cp.1.m (succL lb cp.1.n)) ∧
    (E.short = true → fReadBinCsr E st ws T lb ob wgt cw μ p (.out (.error .error)) []) := by
  rw [← tReadBinCsr_erase st ws] at h
  obtain ⟨L, ht⟩ := h
  unfold tReadBinCsr at ht
  obtain ⟨p, a1, ht⟩ := TR.step_ok ht
  obtain ⟨⟨ls, p⟩, a2, ht⟩ := TR.step_ok ht
  obtain ⟨⟨os, p⟩, a3, ht⟩ := TR.step_ok ht
  obtain ⟨_, a4, ht⟩ := TR.step_ok ht
  obtain ⟨_, a5, ht⟩ := TR.step_ok ht
  obtain ⟨⟨n, p⟩, a6, ht⟩ := TR.step_ok ht
  obtain ⟨⟨m, p⟩, a7, ht⟩ := TR.step_ok ht
  obtain ⟨⟨nrows, p⟩, a8, ht⟩ := TR.step_ok ht
  obtain ⟨⟨ncols, p⟩, a9, ht⟩ := TR.step_ok ht
  obtain ⟨L3, ht, _⟩ := TR.alloc_ok ht
  obtain ⟨⟨x, p⟩, b1, ht⟩ := TR.step_ok ht
  obtain ⟨⟨y, p⟩, b2, ht⟩ := TR.step_ok ht
  obtain ⟨⟨w, p⟩, b3, ht⟩ := TR.step_ok ht
  obtain ⟨ht, _⟩ := ht
  cases ht
  unfold fReadBinCsr
  refine ⟨FR.step_out a1 (FR.step_out a2 (FR.step_out a3 (FR.step_out a4 (FR.step_out a5 (FR.step_out a6 (FR.step_out a7 (FR.step_out a8
    (FR.step_out a9 ?_)))))))), fun hs => FR.step_out a1 (FR.step_out a2 (FR.step_out a3 (FR.step_out a4 (FR.step_out a5 (FR.step_out a6 (FR.step_out a7 (FR.step_out a8
    (FR.step_out a9 ?_))))))))⟩
  · refine ⟨.out (.ok ()), csrBlocks st ws wgt m (succL lb n), .inl ⟨rfl, rfl⟩, [], FR.step_out b1 (FR.step_out b2 (FR.step_out b3 ⟨_, rfl, rfl, rfl⟩)), ?_⟩
    show _ = csrBlocks st ws wgt m (succL lb n) ++ []
    rw [List.append_nil]
  · exact ⟨.out (.error .error), [], .inr ⟨hs, 0, by simp [csrBlocks], rfl, rfl⟩, rfl, rfl⟩

/-- **C92 violated (saved DiGraphs, raw pointers)**: with the default storage, loading any saved DiGraph leaves the endpoints and offsets (and weights) of the first
graph allocated when the memory for the second is missing. -/
theorem C92_digraph_violated [Nonempty W] (omp : Bool) (P : Params W) (hP : P.stor = .pointer) (hT : 0 < P.T) (hlb : P.lb < 256) (hob : P.ob < 256) (g : DiGraph W)
    (hi : FitsCsr P.lb P.ob P.wk.wgt P.cw g.inG) (ho : FitsCsr P.lb P.ob P.wk.wgt P.cw g.outG) (fn : List Byte) (pad : Nat)
    (ft : FileType) (hft : ft = .auto ∨ ft = .digraphBin) :
    fReadDiGraph ⟨omp, true⟩ ⟨.pointer, .pointer⟩ P ⟨digraphFile P.lb P.ob P.wk.wgt P.cw g, pad⟩ fn ft (.out (.error .error))
      ([⟨.endpoints, g.inG.m, true⟩] ++ (if P.wk.wgt then [⟨.weights, g.inG.m, true⟩] else []) ++ [⟨.offsets, g.inG.n + 1, true⟩]) := by
  obtain ⟨u0, h0, u1, s1, u2, s2⟩ := saved_digraph_parts P hT hlb hob g hi ho fn pad
  generalize (⟨digraphFile P.lb P.ob P.wk.wgt P.cw g, pad⟩ : Mapping) = μ at *
  have u0' : usedType μ fn 0 ft = .ok .digraphBin := by
    rcases hft with rfl | rfl
    · exact u0
    · rfl
  have bin : ∀ {p : Nat} {r : R (Csr W × Nat)}, usedType μ fn p .auto = .ok .csrBin → readCsr P μ fn p .auto = readBinCsr P.T P.lb P.ob P.wk.wgt P.cw μ p := by
    intro p _ hu
    unfold readCsr
    rw [R.lift_bind hu, if_neg (by simp), if_pos rfl]
  have fbin : ∀ {p : Nat} {z : Fin (Csr W × Nat)} {L : List Blk}, usedType μ fn p .auto = .ok .csrBin →
      fReadBinCsr ⟨omp, true⟩ ⟨.pointer, .pointer⟩ P.stor P.T P.lb P.ob P.wk.wgt P.cw μ p z L → fReadCsr ⟨omp, true⟩ ⟨.pointer, .pointer⟩ P μ fn p .auto z L := by
    intro p z L hu h
    unfold fReadCsr
    refine ⟨.out (.ok .csrBin), [], ⟨_, rfl, hu.symm, rfl⟩, L, ?_, ?_⟩
    · simp only [reduceCtorEq, or_self, if_false, if_true]; exact h
    · cases z with
      | ended => exact absurd h (fReadBinCsr_stays _ _ _ _ _ _ _ _ _ _ _)
      | out o => cases o <;> rfl
  obtain ⟨o1, e1⟩ := csr_any P hT μ fn 15 .auto
  obtain ⟨c1, rfl, rfl⟩ := s1 o1 e1
  obtain ⟨o2, e2⟩ := csr_any P hT μ fn (15 + csrSaveSize P.lb P.ob P.wk.wgt P.cw g.inG) .auto
  obtain ⟨c2, rfl, _⟩ := s2 o2 e2
  rw [bin u1 (r := R.any _)] at e1
  rw [bin u2 (r := R.any _)] at e2
  have f1 := fbin u1 (fReadBinCsr_ok ⟨omp, true⟩ ⟨.pointer, .pointer⟩ P.stor _ _ _ _ _ _ _ _ e1).1
  have f2 := fbin u2 ((fReadBinCsr_ok ⟨omp, true⟩ ⟨.pointer, .pointer⟩ P.stor _ _ _ _ _ _ _ _ e2).2 rfl)
  unfold fReadDiGraph
  refine FR.step_out (a := FileType.digraphBin) u0'.symm ?_
  rw [if_pos rfl]
  refine FR.step_out (a := 15) h0.symm ?_
  refine ⟨_, _, f1, [], ⟨_, _, f2, rfl, rfl⟩, ?_⟩
  show _ = unwind _ ++ []
  rw [List.append_nil, hP, succL_eq hi.room]
  cases P.wk.wgt <;> simp [unwind, csrBlocks, Storage.raw]

/-! ### The cases are not empty -/

example (L : List Blk) : ¬ fReadDiGraph ⟨true, true⟩ ⟨.pointer, .pointer⟩ binParams
    ⟨digraphFile 4 8 true (codecNat 1 (by decide)) ⟨binCsr, binCsr⟩, 7⟩ (str "a") .auto .ended L :=
  (C92_saved_digraph ⟨true, true⟩ binParams (wUint_silent 8) (by decide) (by decide) (by decide) ⟨binCsr, binCsr⟩ binCsr_fits binCsr_fits (str "a") 7 _ .auto
    (.inl rfl)).1 L

/-- The three arrays of the first graph are lost. -/
example : fReadDiGraph ⟨true, true⟩ ⟨.pointer, .pointer⟩ binParams ⟨digraphFile 4 8 true (codecNat 1 (by decide)) ⟨binCsr, binCsr⟩, 7⟩ (str "a") .auto
    (.out (.error .error)) [⟨.endpoints, 3, true⟩, ⟨.weights, 3, true⟩, ⟨.offsets, 4, true⟩] :=
  C92_digraph_violated true binParams rfl (by decide) (by decide) (by decide) ⟨binCsr, binCsr⟩ binCsr_fits binCsr_fits (str "a") 7 .auto (.inl rfl)

end Pigo
