import Verif.Model.Crash
import Verif.Spec.Crash
import Verif.Lemmas.BinaryFiles

/-! # Lemmas for interrupted saves -/

namespace Pigo

open Spec (blank stage Between Interrupted)

variable {W α β : Type}

/-- All outcomes are successes satisfying `Q`, and all contents of the file satisfy `I`. -/
def Obs.Seg (p : Obs α) (Q : α → Prop) (I : List Byte → Prop) : Prop := p.run.All Q ∧ ∀ s, p.seen s → I s

theorem Obs.Seg.bind {p : Obs α} {k : α → Obs β} {P : α → Prop} {Q : β → Prop} {I : List Byte → Prop} (hp : p.Seg P I)
    (hk : ∀ a, P a → (k a).Seg Q I) : (p >>= k).Seg Q I := by
  refine ⟨R.All.bind hp.1 (fun a ha => (hk a ha).1), ?_⟩
  rintro s (h | ⟨a, ha, h⟩)
  · exact hp.2 s h
  · obtain ⟨b, hb, hP⟩ := hp.1 _ ha
    cases hb
    exact (hk a hP).2 s h

theorem Obs.Seg.mono {p : Obs α} {P : α → Prop} {I J : List Byte → Prop} (hp : p.Seg P I) (h : ∀ s, I s → J s) : p.Seg P J :=
  ⟨hp.1, fun s hs => h s (hp.2 s hs)⟩

theorem Obs.Seg.pure {a : α} {Q : α → Prop} {I : List Byte → Prop} (h : Q a) : (Pure.pure a : Obs α).Seg Q I :=
  ⟨R.All.pure h, fun _ hs => hs.elim⟩

theorem Obs.Seg.lift {p : R α} {Q : α → Prop} {I : List Byte → Prop} (h : p.All Q) : (Obs.lift p).Seg Q I :=
  ⟨h, fun _ hs => hs.elim⟩

/-- Contents seen after a first part. -/
theorem Obs.seen_bind {p : Obs α} {k : α → Obs β} {P : α → Prop} {s : List Byte} (ha : p.run.Any) (hp : p.run.All P)
    (hk : ∀ a, P a → (k a).seen s) : (p >>= k).seen s := by
  obtain ⟨o, ho⟩ := ha
  obtain ⟨a, rfl, h⟩ := hp o ho
  exact .inr ⟨a, ho, hk a h⟩

theorem between_refl_left (a b : List Byte) : Between a b a := ⟨rfl, fun _ => .inl rfl⟩

theorem store_between {a b s : List Byte} (h : Between a b s) {i : Nat} {v : Byte} (hv : b[i]? = some v) (s' : List Byte)
    (hs : store s i v = .ok s') : Between a b s' := by
  unfold store at hs
  split at hs
  · cases hs
    refine ⟨by rw [List.length_set]; exact h.1, fun j => ?_⟩
    by_cases hij : i = j
    · subst hij
      right
      rw [List.getElem?_set_self (by assumption), hv]
    · rw [List.getElem?_set_ne hij]
      exact h.2 j
  · cases hs

theorem runActs_between {a b : List Byte} : ∀ (acts : List (Nat × Byte)) (s s' : List Byte), Between a b s →
    (∀ p ∈ acts, b[p.1]? = some p.2) → runActs storeAct acts s = .ok s' → Between a b s'
  | [], s, s', h, _, hr => by cases hr; exact h
  | p :: acts, s, s', h, hb, hr => by
    rw [runActs] at hr
    cases h1 : storeAct p s with
    | error f => rw [h1] at hr; cases hr
    | ok s1 =>
      rw [h1] at hr
      exact runActs_between acts s1 s' (store_between h (hb p (List.mem_cons_self ..)) s1 h1) (fun q hq => hb q (List.mem_cons_of_mem _ hq)) hr

theorem blank_length {n : Nat} (h : 0 < n) : (blank n).length = n := by simp [blank]; omega

theorem stage_length {n : Nat} {done : List (List Byte)} (hn : 0 < n) (h : done.flatten.length ≤ n) : (stage n done).length = n := by
  rw [stage, List.length_append, List.length_drop, blank_length hn]; omega

/-- The parts `done` are written. -/
structure Done (f : WFile) (n : Nat) (done : List (List Byte)) : Prop where
  pos : 0 < n
  fp : f.fp = done.flatten.length
  bytes : f.bytes = stage n done
  room : done.flatten.length ≤ n

theorem stage_snoc (n : Nat) (done : List (List Byte)) (bs : List Byte) :
    stage n (done ++ [bs]) = (stage n done).take done.flatten.length ++ bs ++ (stage n done).drop (done.flatten.length + bs.length) := by
  simp only [stage, List.flatten_append, List.flatten_singleton]
  rw [List.take_append_of_le_length (Nat.le_refl _), List.take_length]
  congr 1
  rw [List.drop_append, List.drop_of_length_le (l := done.flatten) (by omega), List.nil_append, List.drop_drop, List.length_append]
  congr 1
  omega

theorem stage_acts {n : Nat} {done : List (List Byte)} {bs : List Byte} {p : Nat × Byte} (hp : p ∈ blockActs done.flatten.length bs) :
    (stage n (done ++ [bs]))[p.1]? = some p.2 := by
  obtain ⟨k, h1, h2⟩ := mem_blockActs.mp hp
  have hlt := (List.getElem?_eq_some_iff.mp h2).1
  simp only [stage, List.flatten_append, List.flatten_singleton, List.append_assoc]
  rw [h1, List.getElem?_append_right (by omega), Nat.add_sub_cancel_left, List.getElem?_append_left hlt, h2]

theorem openO_seg {old : List Byte} {n : Nat} (h : 0 < n) :
    (openO old n).Seg (fun f => Done f n []) (fun s => s = old ∨ s = [] ∨ s = stage n []) := by
  refine ⟨R.All.lift (a := ⟨0, List.replicate (n - 1) 0 ++ [1]⟩) (if_neg (by omega)) ⟨h, rfl, ?_, Nat.zero_le _⟩, ?_⟩
  · simp [stage, blank]
  · rintro s (hs | ⟨_, hs | hs⟩)
    · exact .inl hs
    · exact .inr (.inl hs)
    · exact .inr (.inr (by simpa [stage, blank] using hs))

theorem wBytesO_seg {f : WFile} {n : Nat} {done : List (List Byte)} (h : Done f n done) (bs : List Byte) (hs : done.flatten.length + bs.length ≤ n) :
    (wBytesO bs f).Seg (fun f => Done f n (done ++ [bs])) (Between (stage n done) (stage n (done ++ [bs]))) := by
  have hl : f.bytes.length = n := by rw [h.bytes, stage_length h.pos h.room]
  refine ⟨R.All.lift (a := ⟨f.fp + bs.length, f.bytes.take f.fp ++ bs ++ f.bytes.drop (f.fp + bs.length)⟩) ?_ ?_, ?_⟩
  · rw [wBytes, run_block (List.Perm.refl _) f.bytes (by rw [h.fp, hl]; exact hs)]
    rfl
  · exact ⟨h.pos, by simp [h.fp], by rw [stage_snoc, h.fp, h.bytes], by simpa using hs⟩
  · rintro s ⟨k, hk⟩
    rw [h.fp, h.bytes] at hk
    exact runActs_between _ _ _ (between_refl_left _ _) (fun p hp => stage_acts (List.mem_of_mem_take hp)) hk

theorem parWriteO_seg {f : WFile} {n : Nat} {done : List (List Byte)} (h : Done f n done) {T : Nat} (hT : 0 < T) (v : List Byte) {len : Nat}
    (hv : v.length = len) (hs : done.flatten.length + len ≤ n) :
    (parWriteO T v len f).Seg (fun f => Done f n (done ++ [v])) (Between (stage n done) (stage n (done ++ [v]))) := by
  have hl : f.bytes.length = n := by rw [h.bytes, stage_length h.pos h.room]
  subst hv
  have hc := chunks_ok (v := load v) (bs := v) (fun _ _ => rfl) f.fp v.length T rfl
  have hall := chunks_all v f.fp v.length T hT rfl
  unfold parWriteO
  refine Obs.Seg.bind (Obs.Seg.lift (R.All.lift hc (Q := fun t => t = _) rfl)) ?_
  rintro _ rfl
  refine Obs.Seg.bind (P := fun b => b = f.bytes.take f.fp ++ v ++ f.bytes.drop (f.fp + v.length)) ⟨?_, ?_⟩ ?_
  · refine R.All.par (fun sched hi => ⟨_, ?_, rfl⟩)
    have hp := hi.perm
    rw [hall] at hp
    exact run_block hp f.bytes (by rw [h.fp, hl]; exact hs)
  · rintro s ⟨sched, k, hi, hk⟩
    have hp := hi.perm
    rw [hall] at hp
    rw [h.bytes] at hk
    refine runActs_between _ _ _ (between_refl_left _ _) (fun p hp' => ?_) hk
    have := hp.mem_iff.mp (List.mem_of_mem_take hp')
    rw [h.fp] at this
    exact stage_acts this
  · rintro _ rfl
    exact Obs.Seg.pure ⟨h.pos, by simp [h.fp], by rw [stage_snoc, h.fp, h.bytes], by simpa using hs⟩

theorem saveWeightsO_seg {f : WFile} {n : Nat} {done : List (List Byte)} (h : Done f n done) {T : Nat} (hT : 0 < T) {wgt : Bool} (cw : Codec W)
    {m : Nat} {w : List W} (hw : w.length = if wgt then m else 0) (hs : done.flatten.length + weightSize wgt cw m ≤ n) :
    (saveWeightsO T wgt cw m w f).Seg (fun f => Done f n (done ++ [if wgt then rawArr cw.enc w else []]))
      (Between (stage n done) (stage n (done ++ [if wgt then rawArr cw.enc w else []]))) := by
  have hl : wgt = true → (rawArr cw.enc w).length = cw.size * m := fun h => by rw [rawArr_length cw.len, hw, if_pos h]
  unfold saveWeightsO
  split
  · rename_i h0
    cases wgt with
    | false => simp [weightSize] at h0
    | true => simp only [if_pos]; exact parWriteO_seg h hT _ (by rw [hl rfl]; rfl) hs
  · rename_i h0
    have he : (if wgt then rawArr cw.enc w else []) = ([] : List Byte) := by
      cases wgt with
      | false => rfl
      | true =>
        rw [if_pos rfl]
        apply List.eq_nil_of_length_eq_zero
        rw [hl rfl]
        simp only [weightSize, if_pos] at h0
        omega
    rw [he]
    refine Obs.Seg.pure ⟨h.pos, by simp [h.fp], ?_, by simpa using h.room⟩
    rw [h.bytes, stage, stage]
    simp

end Pigo
