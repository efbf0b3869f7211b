import Verif.Lemmas.Release

/-!
# C100: the single header built by generate_release.py

`createSingle hdr fs k fn`: the text written for the files `fs`, starting at `fn`; `k` bounds the nesting of the model (`C100_terminates`).
`Spec.expand`: the text a compiler sees for `fn`, own files put in the place of their `#include`s.
-/

namespace Pigo.Release
open Spec

/-! ## the main file -/

theorem mapM_append_some {α β : Type} {f : α → Option β} : ∀ {as as' : List α} {bs : List β}, (as ++ as').mapM f = some bs →
    ∃ b b', as.mapM f = some b ∧ as'.mapM f = some b' ∧ bs = b ++ b' := by
  intro as
  induction as with
  | nil => intro as' bs h; exact ⟨[], bs, rfl, h, rfl⟩
  | cons a as ih =>
    intro as' bs h
    obtain ⟨b, bs', h1, h2, rfl⟩ := mapM_cons_some h
    obtain ⟨c, c', h3, h4, rfl⟩ := ih h2
    exact ⟨b :: c, c', by rw [List.mapM_cons, h1, h3]; rfl, h4, rfl⟩

/-- Lines without own files are kept by `expand`. -/
theorem mapM_plain {fs : Text → Option Text} {k : Nat} {path : Text} : ∀ {ls : List Text}, (∀ l ∈ ls, isOwn l = false) →
    ls.mapM (part fs k path) = some (ls.map (fun l => ([], [l]))) := by
  intro ls
  induction ls with
  | nil => intro _; rfl
  | cons l ls ih =>
    intro h
    rw [List.mapM_cons, ih (fun x hx => h x (List.mem_cons_of_mem _ hx))]
    unfold part
    rw [h l (List.mem_cons_self ..)]
    rfl

theorem plain_parts (ls : List Text) : (ls.map (fun l => (([], [l]) : List Text × List Text))).flatMap (·.1) = [] ∧
    (ls.map (fun l => (([], [l]) : List Text × List Text))).flatMap (·.2) = ls := by
  induction ls with
  | nil => exact ⟨rfl, rfl⟩
  | cons l ls ih => exact ⟨by rw [List.map_cons, List.flatMap_cons, ih.1]; rfl, by rw [List.map_cons, List.flatMap_cons, ih.2]; rfl⟩

/-- The lines before the namespace. -/
theorem fold_before (rec : Text → List Text → Except Failure (List Text × List Text × Text)) (path : Text) (root : Bool) :
    ∀ (ls : List Text) (st : State), (∀ x ∈ ls, isOwn x = false ∧ opens x = false) → st.inNs = false →
    ls.foldlM (step rec path root) st = .ok { st with includes := st.includes ++ ls.filter isSys } := by
  intro ls
  induction ls with
  | nil => intro st _ _; simp [pure, Except.pure]
  | cons l ls ih =>
    intro st h hb
    obtain ⟨h1, h2⟩ := h l (List.mem_cons_self ..)
    rw [List.foldlM_cons, step_plain rec path root st h1]
    simp only [bind, Except.bind]
    rw [ih _ (fun x hx => h x (List.mem_cons_of_mem _ hx)) (by simp [hb, h2])]
    obtain ⟨seen, inc, code, b⟩ := st
    cases hb
    simp [h2, List.filter_cons]
    split <;> simp

/-- The lines of the namespace. -/
theorem fold_body (rec : Text → List Text → Except Failure (List Text × List Text × Text)) (path : Text) (root : Bool) :
    ∀ (ls : List Text) (st : State), (∀ x ∈ ls, isOwn x = false ∧ closes x = false) → st.inNs = true →
    ls.foldlM (step rec path root) st = .ok { st with includes := st.includes ++ ls.filter isSys, code := st.code ++ ls.flatten } := by
  intro ls
  induction ls with
  | nil => intro st _ _; simp [pure, Except.pure]
  | cons l ls ih =>
    intro st h hb
    obtain ⟨h1, h2⟩ := h l (List.mem_cons_self ..)
    rw [List.foldlM_cons, step_plain rec path root st h1]
    simp only [bind, Except.bind]
    rw [ih _ (fun x hx => h x (List.mem_cons_of_mem _ hx)) (by simp [hb, h2])]
    obtain ⟨seen, inc, code, b⟩ := st
    cases hb
    simp [h2, List.filter_cons]
    split <;> simp

theorem neat_tail : ∀ {xs ys : List Text}, neat false (xs ++ ys) = true → after false xs = false → neat false ys = true := by
  have gen : ∀ (xs : List Text) (b : Bool) (ys : List Text), neat b (xs ++ ys) = true → neat (after b xs) ys = true := by
    intro xs
    induction xs with
    | nil => intro b ys h; cases b <;> exact h
    | cons x xs ih =>
      intro b ys h
      cases b <;> (simp only [List.cons_append, neat, Bool.and_eq_true] at h; exact ih _ _ h.2)
  intro xs ys h ha
  have := gen xs false ys h
  rwa [ha] at this

theorem close_own : isOwn "}\n".toList = false := by decide
theorem close_closes : closes "}\n".toList = true := by decide

/-- `get_code` on the main file. -/
theorem getCode_main {fs : Text → Option Text} {k : Nat} {fn : Text} {vs ls : List Text} (h : expand fs k fn = some (vs, ls)) :
    (vs.Nodup → ∃ seen code, getCode fs k fn true [] = .ok (seen, ls.filter isSys, code) ∧
      ((∀ q txt, fs q = some txt → Neat txt) → (∀ txt, fs fn = some txt → MainNeat txt) →
        ∃ l, opens l = true ∧ l ∈ ls ∧ code = l ++ (inside false ls).flatten ++ "\n}".toList)) ∧
    (¬ vs.Nodup → getCode fs k fn true [] = .error .loop) := by
  cases k with
  | zero => cases h
  | succ k =>
    rw [expand_succ] at h
    cases htxt : fs fn with
    | none => rw [htxt] at h; cases h
    | some txt =>
      rw [htxt] at h
      simp only [Option.bind_eq_bind, Option.bind_some] at h
      cases hparts : (linesOf txt).mapM (part fs k (dirname fn)) with
      | none => rw [hparts] at h; cases h
      | some parts =>
        rw [hparts] at h
        simp only [Option.bind_some, Option.pure_def, Option.some.injEq, Prod.mk.injEq] at h
        obtain ⟨rfl, rfl⟩ := h
        simp only [getCode, htxt, List.not_mem_nil, if_false]
        have hg := getCode_good fs k
        obtain ⟨fa, fb⟩ := fold_good hg (dirname fn) true (linesOf txt) { seen := [fn], includes := [], code := [], inNs := false } parts hparts
        have hfr : (fn :: parts.flatMap (·.1)).Nodup ↔ Fresh (parts.flatMap (·.1)) [fn] := by
          unfold Fresh
          rw [List.nodup_cons]
          constructor
          · rintro ⟨h1, h2⟩
            exact ⟨h2, fun v hv h => h1 (by rw [List.mem_singleton] at h; rwa [← h])⟩
          · rintro ⟨h1, h2⟩
            exact ⟨fun hh => h2 _ hh (List.mem_singleton.mpr rfl), h1⟩
        refine ⟨fun hf => ?_, fun hf => ?_⟩
        · obtain ⟨code, b, e, -⟩ := fa (hfr.mp hf)
          rw [e]
          refine ⟨_, _, rfl, ?_⟩
          intro hN hM
          obtain ⟨pre, l, body, rest, hl, hpre, ho, hlo, hbody, hrest⟩ := hM txt rfl
          have hneat := (hN fn txt htxt).1
          -- the expansion of the four pieces
          rw [hl] at hparts
          obtain ⟨p1, p2, q1, q2, rfl⟩ := mapM_append_some hparts
          obtain ⟨p3, p4, q3, q4, rfl⟩ := mapM_cons_some q2
          obtain ⟨p5, p6, q5, q6, rfl⟩ := mapM_append_some q4
          obtain ⟨p7, p8, q7, q8, rfl⟩ := mapM_cons_some q6
          rw [mapM_plain (fun x hx => (hpre x hx).1)] at q1
          cases q1
          have e3 : part fs k (dirname fn) l = some ([], [l]) := by unfold part; rw [hlo]; rfl
          rw [e3] at q3; cases q3
          rw [mapM_plain (fun x hx => (hbody x hx).1)] at q5
          cases q5
          have e7 : part fs k (dirname fn) "}\n".toList = some ([], ["}\n".toList]) := by unfold part; rw [close_own]; rfl
          rw [e7] at q7; cases q7
          have hls : List.flatMap (fun p : List Text × List Text => p.2) (List.map (fun l => (([], [l]) : List Text × List Text)) pre ++
              (([], [l]) : List Text × List Text) :: (List.map (fun l => (([], [l]) : List Text × List Text)) body ++ ([], ["}\n".toList]) :: p8)) =
              pre ++ l :: (body ++ "}\n".toList :: p8.flatMap (·.2)) := by
            rw [List.flatMap_append, List.flatMap_cons, List.flatMap_append, List.flatMap_cons, (plain_parts pre).2, (plain_parts body).2]
            rfl
          have hvs : List.flatMap (fun p : List Text × List Text => p.1) (List.map (fun l => (([], [l]) : List Text × List Text)) pre ++
              (([], [l]) : List Text × List Text) :: (List.map (fun l => (([], [l]) : List Text × List Text)) body ++ ([], ["}\n".toList]) :: p8)) = p8.flatMap (·.1) := by
            rw [List.flatMap_append, List.flatMap_cons, List.flatMap_append, List.flatMap_cons, (plain_parts pre).1, (plain_parts body).1]
            rfl
          have hpre2 := inside_of_not_opens (fun x hx => (hpre x hx).2)
          have hbody2 := inside_of_not_closes (fun x hx => (hbody x hx).2)
          have hin : inside false (pre ++ l :: (body ++ "}\n".toList :: p8.flatMap (·.2))) = body ++ inside false (p8.flatMap (·.2)) := by
            rw [inside_append, hpre2.1, hpre2.2, List.nil_append, inside, ho, inside_append, hbody2.1, hbody2.2, inside, close_closes]
            rfl
          -- the run
          have hrn : neat false rest = true := by
            have e : pre ++ l :: (body ++ "}\n".toList :: rest) = (pre ++ l :: (body ++ ["}\n".toList])) ++ rest := by simp
            rw [hl, e] at hneat
            refine neat_tail hneat ?_
            rw [after_append, hpre2.2, after, ho, after_append, hbody2.2, after, close_closes]
            rfl
          have hstep : (linesOf txt).foldlM (step (fun p s => getCode fs k p false s) (dirname fn) true)
              { seen := [fn], includes := [], code := [], inNs := false } =
              rest.foldlM (step (fun p s => getCode fs k p false s) (dirname fn) true)
              { seen := [fn], includes := pre.filter isSys ++ [l].filter isSys ++ body.filter isSys ++ ["}\n".toList].filter isSys,
                code := l ++ body.flatten, inNs := false } := by
            rw [hl, List.foldlM_append, fold_before _ _ _ pre _ hpre rfl]
            simp only [bind, Except.bind]
            rw [List.foldlM_cons, step_plain _ _ _ _ hlo]
            simp only [bind, Except.bind, ho, Bool.false_eq_true, if_false, Bool.and_self, if_true]
            rw [List.foldlM_append, fold_body _ _ _ body _ hbody rfl]
            simp only [bind, Except.bind]
            rw [List.foldlM_cons, step_plain _ _ _ _ close_own]
            simp only [bind, Except.bind, close_closes, if_true, Bool.not_true]
            simp only [List.nil_append, List.append_nil, List.append_assoc]
          rw [hvs] at hfr
          obtain ⟨code', b', e', hn'⟩ := (fold_good hg (dirname fn) true rest
            { seen := [fn], includes := pre.filter isSys ++ [l].filter isSys ++ body.filter isSys ++ ["}\n".toList].filter isSys,
              code := l ++ body.flatten, inNs := false } p8 q8).1 (by rw [hvs] at hf; exact hfr.mp hf)
          obtain ⟨c1, _, _⟩ := hn' hN (fun _ => hrest) hrn
          rw [hstep, e'] at e
          simp only [Except.ok.injEq, State.mk.injEq] at e
          refine ⟨l, ho, ?_, ?_⟩
          · rw [hls]; simp
          · rw [hls, hin, ← e.2.2.1, c1]
            simp
        · rw [fb (fun h => hf (hfr.mpr h))]
          rfl

/-! ## the set of includes -/

theorem setOf_mem (ls : List Text) : (setOf ls).Nodup ∧ ∀ l, l ∈ setOf ls ↔ l ∈ ls := by
  induction ls with
  | nil => exact ⟨List.nodup_nil, fun l => Iff.rfl⟩
  | cons x ls ih =>
    unfold setOf
    split
    · rename_i h
      refine ⟨ih.1, fun l => ?_⟩
      rw [ih.2, List.mem_cons]
      exact ⟨.inr, fun h' => h'.elim (fun e => by rw [e]; exact (ih.2 x).mp h) id⟩
    · rename_i h
      refine ⟨List.nodup_cons.mpr ⟨h, ih.1⟩, fun l => ?_⟩
      rw [List.mem_cons, List.mem_cons, ih.2]

theorem sorted_includes (ls : List Text) : ((setOf ls).mergeSort (fun a b => decide (a ≤ b))).Pairwise (· < ·) ∧
    ∀ l, l ∈ (setOf ls).mergeSort (fun a b => decide (a ≤ b)) ↔ l ∈ ls := by
  have hs : ((setOf ls).mergeSort (fun a b => decide (a ≤ b))).Pairwise (fun a b => decide (a ≤ b) = true) := by
    apply List.pairwise_mergeSort
    · intro a b c h1 h2
      simp only [decide_eq_true_eq] at h1 h2 ⊢
      exact List.le_trans h1 h2
    · intro a b
      simp only [Bool.or_eq_true, decide_eq_true_eq]
      exact List.le_total a b
  have hp := List.mergeSort_perm (setOf ls) (fun a b => decide (a ≤ b))
  refine ⟨?_, fun l => by rw [hp.mem_iff, (setOf_mem ls).2]⟩
  have hnd : ((setOf ls).mergeSort (fun a b => decide (a ≤ b))).Nodup := hp.nodup_iff.mpr (setOf_mem ls).1
  refine (hs.and hnd).imp ?_
  rintro a b ⟨h1, h2⟩
  simp only [decide_eq_true_eq] at h1
  exact (List.le_iff_lt_or_eq.mp h1).resolve_right h2

/-! ## where the lines come from -/

theorem mapM_mem {α β : Type} {f : α → Option β} : ∀ {as : List α} {bs : List β}, as.mapM f = some bs → ∀ b ∈ bs, ∃ a ∈ as, f a = some b := by
  intro as
  induction as with
  | nil => intro bs h b hb; rw [List.mapM_nil] at h; cases h; cases hb
  | cons a as ih =>
    intro bs h b hb
    obtain ⟨b0, bs', h1, h2, rfl⟩ := mapM_cons_some h
    rcases List.mem_cons.mp hb with rfl | hb
    · exact ⟨a, List.mem_cons_self .., h1⟩
    · obtain ⟨x, hx, he⟩ := ih h2 b hb
      exact ⟨x, List.mem_cons_of_mem _ hx, he⟩

theorem expand_mem {fs : Text → Option Text} : ∀ {k : Nat} {fn : Text} {vs ls : List Text}, expand fs k fn = some (vs, ls) →
    ∀ l ∈ ls, isOwn l = false ∧ ∃ q txt, fs q = some txt ∧ l ∈ linesOf txt := by
  intro k
  induction k with
  | zero => intro fn vs ls h; cases h
  | succ k ih =>
    intro fn vs ls h l hl
    rw [expand_succ] at h
    cases htxt : fs fn with
    | none => rw [htxt] at h; cases h
    | some txt =>
      rw [htxt] at h
      simp only [Option.bind_eq_bind, Option.bind_some] at h
      cases hparts : (linesOf txt).mapM (part fs k (dirname fn)) with
      | none => rw [hparts] at h; cases h
      | some parts =>
        rw [hparts] at h
        simp only [Option.bind_some, Option.pure_def, Option.some.injEq, Prod.mk.injEq] at h
        obtain ⟨rfl, rfl⟩ := h
        obtain ⟨⟨v, x⟩, hp, hx⟩ := List.mem_flatMap.mp hl
        obtain ⟨a, ha, he⟩ := mapM_mem hparts _ hp
        unfold part at he
        cases ho : isOwn a with
        | true =>
          rw [ho] at he
          simp only [if_true] at he
          cases hq : quoted a with
          | none => rw [hq] at he; cases he
          | some f =>
            rw [hq] at he
            exact ih he l hx
        | false =>
          rw [ho] at he
          simp only [Bool.false_eq_true, if_false, Option.some.injEq, Prod.mk.injEq] at he
          obtain ⟨rfl, rfl⟩ := he
          rw [List.mem_singleton] at hx
          subst hx
          exact ⟨ho, fn, txt, htxt, ha⟩

theorem inside_sub : ∀ (ls : List Text) (b : Bool), ∀ l ∈ inside b ls, l ∈ ls ∧ closes l = false := by
  intro ls
  induction ls with
  | nil => intro b l hl; cases b <;> cases hl
  | cons x ls ih =>
    intro b l hl
    cases b with
    | false =>
      simp only [inside] at hl
      obtain ⟨h1, h2⟩ := ih _ l hl
      exact ⟨List.mem_cons_of_mem _ h1, h2⟩
    | true =>
      simp only [inside] at hl
      cases hc : closes x with
      | true =>
        rw [hc] at hl
        obtain ⟨h1, h2⟩ := ih _ l hl
        exact ⟨List.mem_cons_of_mem _ h1, h2⟩
      | false =>
        rw [hc] at hl
        simp only [Bool.false_eq_true, if_false] at hl
        rcases List.mem_cons.mp hl with rfl | hl
        · exact ⟨List.mem_cons_self .., hc⟩
        · obtain ⟨h1, h2⟩ := ih _ l hl
          exact ⟨List.mem_cons_of_mem _ h1, h2⟩

/-! ## C100 -/

/-- The files are written the way the script expects, starting at `fn`. -/
structure Library (fs : Text → Option Text) (fn : Text) : Prop where
  files : ∀ q txt, fs q = some txt → Neat txt
  main : ∀ txt, fs fn = some txt → MainNeat txt

/-- C100: the header that is written, as lines: the header text, the system headers (each once, in ascending order), an empty line, a line
that opens the namespace, all the lines of the namespace in the order the compiler meets them, the end of the namespace and of the file. -/
theorem C100_text (hdr : Text) (hh : Header hdr) (fs : Text → Option Text) (k : Nat) (fn : Text) (hL : Library fs fn) (vs ls : List Text)
    (he : expand fs k fn = some (vs, ls)) (out : Text) (ho : createSingle hdr fs k fn = .ok out) :
    ∃ incs l, linesOf out = linesOf hdr ++ incs ++ ["\n".toList] ++ [l] ++ inside false ls ++
        ["\n".toList, "}\n".toList, "\n".toList, "#endif /* PIGO_HPP */\n".toList] ∧
      incs.Pairwise (· < ·) ∧ (∀ x, x ∈ incs ↔ x ∈ ls ∧ isSys x = true) ∧ l ∈ ls ∧ opens l = true := by
  obtain ⟨h1, h2⟩ := getCode_main he
  unfold createSingle at ho
  by_cases hnd : vs.Nodup
  · obtain ⟨seen, code, e, hn⟩ := h1 hnd
    obtain ⟨l, hop, hl, rfl⟩ := hn hL.files hL.main
    rw [e] at ho
    simp only [bind, Except.bind, pure, Except.pure, Except.ok.injEq] at ho
    subst ho
    obtain ⟨hs, hm⟩ := sorted_includes (ls.filter isSys)
    refine ⟨(setOf (ls.filter isSys)).mergeSort (fun a b => decide (a ≤ b)), l, ?_, hs, fun x => by rw [hm, List.mem_filter], hl, hop⟩
    have full : ∀ x ∈ ls, Full x := by
      intro x hx
      obtain ⟨_, q, txt, hq, hx⟩ := expand_mem he x hx
      exact linesOf_all_full (hL.files q txt hq).2.1 x hx
    have hdrl : ∀ t, linesOf (hdr ++ t) = linesOf hdr ++ linesOf t := by
      intro t
      conv => lhs; rw [← flatten_linesOf hdr]
      exact linesOf_flatten (linesOf_all_full hh.1) t
    unfold writeIncludes
    simp only [List.append_assoc]
    rw [hdrl, linesOf_flatten (fun x hx => full x (List.mem_filter.mp ((hm x).mp hx)).1), linesOf_full (l := "\n".toList) ⟨[], by decide, by simp⟩,
      linesOf_full (full l hl), linesOf_flatten (fun x hx => full x (inside_sub ls false x hx).1)]
    have : linesOf ("\n}".toList ++ footer) = ["\n".toList, "}\n".toList, "\n".toList, "#endif /* PIGO_HPP */\n".toList] := by decide
    rw [this]
    simp
  · rw [h2 hnd] at ho
    cases ho

/-- C100: the released header declares the same code as the main file with all it includes: line by line, inside namespace `pigo`, followed
by an empty line. -/
theorem C100_same_code (hdr : Text) (hh : Header hdr) (fs : Text → Option Text) (k : Nat) (fn : Text) (hL : Library fs fn) (vs ls : List Text)
    (he : expand fs k fn = some (vs, ls)) (out : Text) (ho : createSingle hdr fs k fn = .ok out) :
    inside false (linesOf out) = inside false ls ++ ["\n".toList] := by
  obtain ⟨incs, l, e, _, hm, hl, hop⟩ := C100_text hdr hh fs k fn hL vs ls he out ho
  have h1 := inside_of_not_opens (fun x hx => (hh.2 x hx).1)
  have h2 : ∀ x ∈ incs, opens x = false := by
    intro x hx
    obtain ⟨hx, hs⟩ := (hm x).mp hx
    obtain ⟨_, q, txt, hq, hx⟩ := expand_mem he x hx
    refine (hL.files q txt hq).2.2 x hx ?_
    unfold isSys at hs
    simp only [Bool.and_eq_true] at hs
    exact hs.1
  have h2 := inside_of_not_opens h2
  have h3 := inside_of_not_closes (fun x hx => (inside_sub ls false x hx).2)
  rw [e]
  simp only [List.append_assoc]
  rw [inside_append, h1.1, h1.2, inside_append, h2.1, h2.2, List.nil_append, List.nil_append, List.singleton_append]
  rw [inside, show opens "\n".toList = false from by decide, List.singleton_append, inside, hop, inside_append, h3.1, h3.2]
  congr 1

/-- C100: the released header includes exactly the system headers that the main file and the files it includes mention. -/
theorem C100_same_includes (hdr : Text) (hh : Header hdr) (fs : Text → Option Text) (k : Nat) (fn : Text) (hL : Library fs fn)
    (vs ls : List Text) (he : expand fs k fn = some (vs, ls)) (out : Text) (ho : createSingle hdr fs k fn = .ok out) (x : Text) :
    (x ∈ linesOf out ∧ isSys x = true ↔ x ∈ ls ∧ isSys x = true) ∧ (x ∈ linesOf out → isOwn x = false) := by
  obtain ⟨incs, l, e, _, hm, hl, hop⟩ := C100_text hdr hh fs k fn hL vs ls he out ho
  have hown : x ∈ linesOf out → isOwn x = false := by
    intro hx
    rw [e] at hx
    simp only [List.mem_append, List.mem_cons, List.not_mem_nil, or_false] at hx
    rcases hx with ((((h | h) | h) | h) | h) | h
    · have := (hh.2 x h).2
      unfold isOwn
      rw [this]; rfl
    · exact (expand_mem he x ((hm x).mp h).1).1
    · rw [h]; decide
    · rw [h]; exact (expand_mem he l hl).1
    · exact (expand_mem he x (inside_sub ls false x h).1).1
    · rcases h with rfl | rfl | rfl | rfl <;> decide
  refine ⟨⟨?_, ?_⟩, hown⟩
  · rintro ⟨hx, hs⟩
    refine ⟨?_, hs⟩
    rw [e] at hx
    simp only [List.mem_append, List.mem_cons, List.not_mem_nil, or_false] at hx
    have hinc : isInclude x = true := by
      unfold isSys at hs
      simp only [Bool.and_eq_true] at hs
      exact hs.1
    rcases hx with ((((h | h) | h) | h) | h) | h
    · rw [(hh.2 x h).2] at hinc; cases hinc
    · exact ((hm x).mp h).1
    · rw [h] at hinc; exact absurd hinc (by decide)
    · rw [h]; exact hl
    · exact (inside_sub ls false x h).1
    · rcases h with rfl | rfl | rfl | rfl <;> exact absurd hinc (by decide)
  · rintro ⟨hx, hs⟩
    refine ⟨?_, hs⟩
    rw [e]
    simp only [List.mem_append, (hm x).mpr ⟨hx, hs⟩, true_or, or_true]

/-! ### when a header is written -/

theorem fold_expand {fs : Text → Option Text} {k : Nat} {rec : Text → List Text → Except Failure (List Text × List Text × Text)}
    (hrec : ∀ p s r, rec p s = .ok r → ∃ q, expand fs k p = some q) (path : Text) (root : Bool) :
    ∀ (lines : List Text) (st st' : State), lines.foldlM (step rec path root) st = .ok st' → ∃ parts, lines.mapM (part fs k path) = some parts := by
  intro lines
  induction lines with
  | nil => intro st st' _; exact ⟨[], rfl⟩
  | cons l lines ih =>
    intro st st' h
    rw [List.foldlM_cons] at h
    cases hs : step rec path root st l with
    | error e => rw [hs] at h; cases h
    | ok st1 =>
      rw [hs] at h
      obtain ⟨parts, hp⟩ := ih st1 st' h
      cases ho : isOwn l with
      | false =>
        refine ⟨([], [l]) :: parts, ?_⟩
        rw [List.mapM_cons, hp]
        unfold part
        rw [ho]
        rfl
      | true =>
        cases hq : quoted l with
        | none =>
          unfold isOwn at ho
          simp only [Bool.and_eq_true] at ho
          unfold step at hs
          simp only [ho.1, ho.2, if_true, hq] at hs
          cases hs
        | some f =>
          rw [step_own rec path root st ho hq] at hs
          cases hr : rec (join path f) st.seen with
          | error e => rw [hr] at hs; cases hs
          | ok r =>
            obtain ⟨q, hq'⟩ := hrec _ _ _ hr
            refine ⟨q :: parts, ?_⟩
            rw [List.mapM_cons, hp]
            have : part fs k path l = some q := by
              unfold part
              rw [ho, if_pos rfl, hq]
              exact hq'
            rw [this]
            rfl

theorem getCode_expand (fs : Text → Option Text) : ∀ k fn root seen r, getCode fs k fn root seen = .ok r → ∃ q, expand fs k fn = some q := by
  intro k
  induction k with
  | zero => intro fn root seen r h; cases h
  | succ k ih =>
    intro fn root seen r h
    simp only [getCode] at h
    split at h
    · cases h
    · cases htxt : fs fn with
      | none => rw [htxt] at h; cases h
      | some txt =>
        rw [htxt] at h
        simp only at h
        cases hf : (linesOf txt).foldlM (step (fun p s => getCode fs k p false s) (dirname fn) root)
            { seen := fn :: seen, includes := [], code := [], inNs := false } with
        | error e => rw [hf] at h; cases h
        | ok st =>
          obtain ⟨parts, hp⟩ := fold_expand (fun p s r hr => ih p false s r hr) (dirname fn) root _ _ _ hf
          rw [expand_succ, htxt]
          simp only [Option.bind_eq_bind, Option.bind_some, hp]
          exact ⟨_, rfl⟩

/-- C100: a header is written if and only if the included files exist, do not include each other endlessly, and none of them is included
from two places. -/
theorem C100_written_iff (hdr : Text) (fs : Text → Option Text) (k : Nat) (fn : Text) :
    (∃ out, createSingle hdr fs k fn = .ok out) ↔ ∃ vs ls, expand fs k fn = some (vs, ls) ∧ vs.Nodup := by
  constructor
  · rintro ⟨out, ho⟩
    unfold createSingle at ho
    cases hg : getCode fs k fn true [] with
    | error e => rw [hg] at ho; cases ho
    | ok r =>
      obtain ⟨⟨vs, ls⟩, he⟩ := getCode_expand fs k fn true [] r hg
      refine ⟨vs, ls, he, Classical.byContradiction (fun hnd => ?_)⟩
      rw [(getCode_main he).2 hnd] at hg
      cases hg
  · rintro ⟨vs, ls, he, hnd⟩
    obtain ⟨seen, code, e, _⟩ := (getCode_main he).1 hnd
    unfold createSingle
    rw [e]
    exact ⟨_, rfl⟩

/-- C100: files that include each other without a loop, but one of them from two places, are rejected with `Loop detected`. -/
theorem C100_included_twice_violated (hdr : Text) (fs : Text → Option Text) (k : Nat) (fn : Text) (vs ls : List Text)
    (he : expand fs k fn = some (vs, ls)) (h2 : ¬ vs.Nodup) : createSingle hdr fs k fn = .error .loop := by
  unfold createSingle
  rw [(getCode_main he).2 h2]
  rfl

/-! ### the nesting -/

/-- `step` with two recursive calls that agree unless the first one runs out of fuel. -/
theorem step_mono {rec rec' : Text → List Text → Except Failure (List Text × List Text × Text)}
    (h : ∀ p s, rec p s ≠ .error .fuel → rec' p s = rec p s) (path : Text) (root : Bool) (st : State) (l : Text)
    (hne : step rec path root st l ≠ .error .fuel) : step rec' path root st l = step rec path root st l := by
  cases ho : isOwn l with
  | false => rw [step_plain rec path root st ho, step_plain rec' path root st ho]
  | true =>
    cases hq : quoted l with
    | none =>
      unfold isOwn at ho
      simp only [Bool.and_eq_true] at ho
      unfold step
      simp only [ho.1, ho.2, if_true, hq]
    | some f =>
      rw [step_own rec path root st ho hq] at hne ⊢
      rw [step_own rec' path root st ho hq, h]
      intro hf
      rw [hf] at hne
      exact hne rfl

theorem fold_mono {rec rec' : Text → List Text → Except Failure (List Text × List Text × Text)}
    (h : ∀ p s, rec p s ≠ .error .fuel → rec' p s = rec p s) (path : Text) (root : Bool) : ∀ (lines : List Text) (st : State),
    lines.foldlM (step rec path root) st ≠ .error .fuel →
    lines.foldlM (step rec' path root) st = lines.foldlM (step rec path root) st := by
  intro lines
  induction lines with
  | nil => intro st _; rfl
  | cons l lines ih =>
    intro st hne
    rw [List.foldlM_cons] at hne ⊢
    rw [List.foldlM_cons]
    have h1 : step rec path root st l ≠ .error .fuel := by
      intro hf
      rw [hf] at hne
      exact hne rfl
    rw [step_mono h path root st l h1]
    cases hs : step rec path root st l with
    | error e => rfl
    | ok st1 =>
      rw [hs] at hne
      exact ih st1 hne

theorem getCode_succ (fs : Text → Option Text) (k : Nat) (fn : Text) (root : Bool) (seen : List Text) :
    getCode fs (k + 1) fn root seen =
    (if fn ∈ seen then .error .loop
    else match fs fn with
      | none => .error .missing
      | some txt => do
        let st ← (linesOf txt).foldlM (step (fun p s => getCode fs k p false s) (dirname fn) root)
          { seen := fn :: seen, includes := [], code := [], inNs := false }
        pure (st.seen, st.includes, if root then st.code ++ "\n}".toList else st.code)) := rfl

theorem getCode_mono (fs : Text → Option Text) : ∀ k fn root seen, getCode fs k fn root seen ≠ .error .fuel →
    getCode fs (k + 1) fn root seen = getCode fs k fn root seen := by
  intro k
  induction k with
  | zero => intro fn root seen h; exact absurd rfl h
  | succ k ih =>
    intro fn root seen h
    rw [getCode_succ] at h
    rw [getCode_succ fs k, getCode_succ fs (k + 1)]
    by_cases hs : fn ∈ seen
    · rw [if_pos hs, if_pos hs]
    · rw [if_neg hs] at h ⊢
      rw [if_neg hs]
      cases htxt : fs fn with
      | none => rfl
      | some txt =>
        rw [htxt] at h
        simp only at h ⊢
        rw [fold_mono (rec := fun p s => getCode fs k p false s) (rec' := fun p s => getCode fs (k + 1) p false s) (fun p s hp => ih p false s hp)]
        intro hf
        rw [hf] at h
        exact h rfl

/-- The number of files not yet read. -/
def left (files seen : List Text) : Nat := files.countP (fun f => decide (f ∉ seen))

theorem left_mono {files seen seen' : List Text} (h : ∀ f ∈ seen, f ∈ seen') : left files seen' ≤ left files seen := by
  unfold left
  apply List.countP_mono_left
  intro x _ hx
  simp only [decide_eq_true_eq] at hx ⊢
  exact fun hs => hx (h x hs)

theorem left_lt {files seen : List Text} {fn : Text} (hf : fn ∈ files) (hs : fn ∉ seen) : left files (fn :: seen) < left files seen := by
  unfold left
  induction files with
  | nil => cases hf
  | cons g files ih =>
    rw [List.countP_cons, List.countP_cons]
    have hle := left_mono (files := files) (seen := seen) (seen' := fn :: seen) (fun f h => List.mem_cons_of_mem _ h)
    unfold left at hle
    by_cases hg : g = fn
    · rw [if_neg (by simp [hg]), if_pos (by simp [hg, hs])]
      omega
    · have := ih ((List.mem_cons.mp hf).resolve_left (fun e => hg e.symm))
      by_cases hgs : g ∈ seen
      · rw [if_neg (by simp [hgs]), if_neg (by simp [hgs])]
        omega
      · rw [if_pos (by simp [hgs, hg]), if_pos (by simp [hgs])]
        omega

/-- A recursive call that does not run out of fuel, and keeps the files read. -/
def Sound (rec : Text → List Text → Except Failure (List Text × List Text × Text)) (files : List Text) (n : Nat) : Prop :=
  ∀ p s, left files s < n → rec p s ≠ .error .fuel ∧ ∀ r, rec p s = .ok r → ∀ f ∈ s, f ∈ r.1

theorem fold_sound {rec : Text → List Text → Except Failure (List Text × List Text × Text)} {files : List Text} {n : Nat}
    (h : Sound rec files n) (path : Text) (root : Bool) : ∀ (lines : List Text) (st : State), left files st.seen < n →
    lines.foldlM (step rec path root) st ≠ .error .fuel ∧
    ∀ st', lines.foldlM (step rec path root) st = .ok st' → ∀ f ∈ st.seen, f ∈ st'.seen := by
  intro lines
  induction lines with
  | nil =>
    intro st _
    refine ⟨fun h => (by cases h), fun st' h => ?_⟩
    cases h
    exact fun f hf => hf
  | cons l lines ih =>
    intro st hl
    have hstep : step rec path root st l ≠ .error .fuel ∧ ∀ st1, step rec path root st l = .ok st1 → ∀ f ∈ st.seen, f ∈ st1.seen := by
      cases ho : isOwn l with
      | false =>
        rw [step_plain rec path root st ho]
        refine ⟨fun h => (by cases h), fun st1 h => ?_⟩
        cases h
        exact fun f hf => hf
      | true =>
        cases hq : quoted l with
        | none =>
          unfold isOwn at ho
          simp only [Bool.and_eq_true] at ho
          have : step rec path root st l = .error .index := by
            unfold step
            simp only [ho.1, ho.2, if_true, hq]
            rfl
          rw [this]
          exact ⟨fun h => (by cases h), fun st1 h => by cases h⟩
        | some f =>
          rw [step_own rec path root st ho hq]
          obtain ⟨h1, h2⟩ := h (join path f) st.seen hl
          cases hr : rec (join path f) st.seen with
          | error e =>
            rw [hr] at h1
            refine ⟨fun he => ?_, fun st1 he => by cases he⟩
            cases he
            exact h1 rfl
          | ok r =>
            refine ⟨fun he => (by cases he), fun st1 he => ?_⟩
            cases he
            exact h2 r hr
    rw [List.foldlM_cons]
    cases hs : step rec path root st l with
    | error e =>
      rw [hs] at hstep
      refine ⟨fun he => ?_, fun st1 he => by cases he⟩
      cases he
      exact hstep.1 rfl
    | ok st1 =>
      have hk := hstep.2 st1 hs
      obtain ⟨i1, i2⟩ := ih st1 (Nat.lt_of_le_of_lt (left_mono hk) hl)
      exact ⟨i1, fun st' he f hf => i2 st' he f (hk f hf)⟩

theorem getCode_sound {fs : Text → Option Text} {files : List Text} (hfs : ∀ f, fs f ≠ none → f ∈ files) : ∀ k root,
    Sound (fun p s => getCode fs k p root s) files k := by
  intro k
  induction k with
  | zero => intro root p s h; omega
  | succ k ih =>
    intro root p s h
    simp only [getCode]
    by_cases hs : p ∈ s
    · rw [if_pos hs]
      exact ⟨fun h => (by cases h), fun r h => by cases h⟩
    · rw [if_neg hs]
      cases htxt : fs p with
      | none => exact ⟨fun h => (by cases h), fun r h => by cases h⟩
      | some txt =>
        have hlt := left_lt (hfs p (by rw [htxt]; simp)) hs
        obtain ⟨f1, f2⟩ := fold_sound (ih false) (dirname p) root (linesOf txt) { seen := p :: s, includes := [], code := [], inNs := false }
          (show left files (p :: s) < k by omega)
        simp only
        cases hf : (linesOf txt).foldlM (step (fun p s => getCode fs k p false s) (dirname p) root)
            { seen := p :: s, includes := [], code := [], inNs := false } with
        | error e =>
          rw [hf] at f1
          refine ⟨fun he => ?_, fun r he => by cases he⟩
          cases he
          exact f1 rfl
        | ok st =>
          refine ⟨fun he => (by cases he), fun r he => ?_⟩
          cases he
          exact fun f hf' => f2 st hf f (List.mem_cons_of_mem _ hf')

/-- C100: the script ends, even if files include each other: with finitely many files the bound on the nesting is never reached, and the
result does not depend on it. -/
theorem C100_terminates (hdr : Text) (fs : Text → Option Text) (files : List Text) (hfs : ∀ f, fs f ≠ none → f ∈ files) (fn : Text) :
    ∃ r, r ≠ .error .fuel ∧ ∀ k, files.length < k → createSingle hdr fs k fn = r := by
  have hne : ∀ k, files.length < k → getCode fs k fn true [] ≠ .error .fuel := by
    intro k hk
    refine (getCode_sound hfs k true fn [] ?_).1
    exact Nat.lt_of_le_of_lt List.countP_le_length hk
  have heq : ∀ j, getCode fs (files.length + 1 + j) fn true [] = getCode fs (files.length + 1) fn true [] := by
    intro j
    induction j with
    | zero => rfl
    | succ j ih => rw [← Nat.add_assoc, getCode_mono fs _ fn true [] (hne _ (by omega)), ih]
  refine ⟨createSingle hdr fs (files.length + 1) fn, ?_, ?_⟩
  · have := hne (files.length + 1) (by omega)
    unfold createSingle
    cases hg : getCode fs (files.length + 1) fn true [] with
    | error e =>
      rw [hg] at this
      intro h
      cases h
      exact this rfl
    | ok r => intro h; cases h
  · intro k hk
    unfold createSingle
    rw [show k = files.length + 1 + (k - (files.length + 1)) by omega, heq]

/-! ### conditional includes -/

theorem directive_include {l : Text} (h : isInclude l = true) : directive l = .none := by
  unfold isInclude at h
  rw [List.isPrefixOf_iff_prefix] at h
  obtain ⟨t, rfl⟩ := h
  rfl

/-- The conditions after some lines. -/
def condsAfter (defs : List Text) (st : List Bool) (ls : List Text) : List Bool := ls.foldl (conds defs) st

theorem active_append (defs : List Text) : ∀ (xs : List Text) (st : List Bool) (ys : List Text),
    active defs st (xs ++ ys) = active defs st xs ++ active defs (condsAfter defs st xs) ys := by
  intro xs
  induction xs with
  | nil => intro st ys; rfl
  | cons x xs ih =>
    intro st ys
    simp only [List.cons_append, active, condsAfter, List.foldl_cons, List.append_assoc]
    rw [ih]
    rfl

theorem active_includes {defs : List Text} {st : List Bool} (hst : st.all id = true) : ∀ {ls : List Text}, (∀ l ∈ ls, isInclude l = true) →
    active defs st ls = ls := by
  intro ls
  induction ls with
  | nil => intro _; rfl
  | cons l ls ih =>
    intro h
    have hc : conds defs st l = st := by
      unfold conds
      rw [directive_include (h l (List.mem_cons_self ..))]
    rw [active, hc, ih (fun x hx => h x (List.mem_cons_of_mem _ hx)), hst]
    rfl

/-- C100: every system header mentioned in any of the files is included unconditionally by the released header, whatever conditions it is
under in those files. -/
theorem C100_unconditional_violated (hdr : Text) (hh : Header hdr) (fs : Text → Option Text) (k : Nat) (fn : Text) (hL : Library fs fn)
    (vs ls : List Text) (he : expand fs k fn = some (vs, ls)) (out : Text) (ho : createSingle hdr fs k fn = .ok out) (defs : List Text)
    (hd : (condsAfter defs [] (linesOf hdr)).all id = true) (x : Text) (hx : x ∈ ls) (hs : isSys x = true) :
    x ∈ active defs [] (linesOf out) := by
  obtain ⟨incs, l, e, _, hm, hl, hop⟩ := C100_text hdr hh fs k fn hL vs ls he out ho
  have hinc : ∀ y ∈ incs, isInclude y = true := by
    intro y hy
    have := ((hm y).mp hy).2
    unfold isSys at this
    simp only [Bool.and_eq_true] at this
    exact this.1
  rw [e]
  simp only [List.append_assoc]
  rw [active_append, active_append, active_includes hd hinc]
  exact List.mem_append_right _ (List.mem_append_left _ ((hm x).mpr ⟨hx, hs⟩))

/-! ### what the words of the specification mean -/

theorem contains_iff (sub : Text) : ∀ l : Text, contains sub l = true ↔ sub <:+: l := by
  intro l
  induction l with
  | nil =>
    simp only [contains, List.isEmpty_iff]
    exact ⟨fun h => by rw [h]; exact List.infix_rfl, fun h => List.eq_nil_of_infix_nil h⟩
  | cons c cs ih =>
    simp only [contains, Bool.or_eq_true, List.isPrefixOf_iff_prefix, ih, List.infix_cons_iff]

/-- C100, the lines of a text: they make up the text, each but the last ends with the only newline in it, the last one may have none, and
none is empty. -/
theorem C100_lines (t : Text) : (linesOf t).flatten = t ∧ (∀ l ∈ linesOf t, l ≠ []) ∧ (∀ l ∈ (linesOf t).dropLast, Full l) ∧
    ∀ l ∈ linesOf t, '\n' ∉ l.dropLast := by
  refine ⟨flatten_linesOf t, ?_⟩
  induction t with
  | nil => simp [linesOf]
  | cons c cs ih =>
    obtain ⟨i1, i2, i3⟩ := ih
    simp only [linesOf]
    split
    · rename_i hc
      refine ⟨?_, ?_, ?_⟩
      · intro l hl
        rcases List.mem_cons.mp hl with rfl | hl
        · simp
        · exact i1 l hl
      · intro l hl
        cases hcs : linesOf cs with
        | nil => rw [hcs] at hl; simp at hl
        | cons l0 ls0 =>
          rw [hcs, List.dropLast_cons_of_ne_nil (by simp), List.mem_cons] at hl
          rcases hl with rfl | hl
          · exact ⟨[], rfl, by simp⟩
          · exact i2 l (by rw [hcs]; exact hl)
      · intro l hl
        rcases List.mem_cons.mp hl with rfl | hl
        · simp
        · exact i3 l hl
    · rename_i hc
      cases hcs : linesOf cs with
      | nil => simp
      | cons l0 ls0 =>
        rw [hcs] at i1 i2 i3
        have hl0 := i1 l0 (List.mem_cons_self ..)
        refine ⟨?_, ?_, ?_⟩
        · intro l hl
          rcases List.mem_cons.mp hl with rfl | hl
          · simp
          · exact i1 l (List.mem_cons_of_mem _ hl)
        · intro l hl
          cases hls : ls0 with
          | nil => rw [hls] at hl; simp at hl
          | cons l1 ls1 =>
            rw [hls] at hl i2
            rw [List.dropLast_cons_of_ne_nil (by simp), List.mem_cons] at hl
            rw [List.dropLast_cons_of_ne_nil (by simp)] at i2
            rcases hl with rfl | hl
            · obtain ⟨a, rfl, ha⟩ := i2 l0 (List.mem_cons_self ..)
              exact ⟨c :: a, rfl, by simp only [List.mem_cons, not_or]; exact ⟨fun h => hc h.symm, ha⟩⟩
            · exact i2 l (List.mem_cons_of_mem _ hl)
        · intro l hl
          rcases List.mem_cons.mp hl with rfl | hl
          · rw [List.dropLast_cons_of_ne_nil hl0]
            simp only [List.mem_cons, not_or]
            exact ⟨fun h => hc h.symm, i3 l0 (List.mem_cons_self ..)⟩
          · exact i3 l (List.mem_cons_of_mem _ hl)

/-- C100, the kinds of lines. -/
theorem C100_kinds (l : Text) :
    (isOwn l = true ↔ "#include ".toList <+: l ∧ "pigo".toList <:+: l) ∧
    (isSys l = true ↔ "#include ".toList <+: l ∧ ¬ "pigo".toList <:+: l) ∧
    (opens l = true ↔ "namespace pigo {".toList <:+: l) ∧ (closes l = true ↔ l = "}\n".toList) := by
  refine ⟨?_, ?_, contains_iff _ l, ?_⟩
  · unfold isOwn isInclude
    rw [Bool.and_eq_true, List.isPrefixOf_iff_prefix, contains_iff]
  · rw [isSys_eq]
    unfold isInclude
    rw [Bool.and_eq_true, List.isPrefixOf_iff_prefix, ← contains_iff]
    simp
  · unfold closes
    exact beq_iff_eq

/-- C100, paths from the root: an absolute name stands for itself, the directory of `/g` is `/`, and in a directory written with
a slash at its end no slash is added. -/
theorem C100_paths_root (d f g : Text) (hg : '/' ∉ g) (hf : ¬ ['/'] <+: f) :
    join d ('/' :: g) = '/' :: g ∧ dirname ('/' :: g) = ['/'] ∧ join (d ++ ['/']) f = d ++ '/' :: f := by
  refine ⟨?_, ?_, ?_⟩
  · unfold join
    rw [if_pos (by simp)]
  · unfold dirname
    have e : ('/' :: g).reverse.dropWhile (· ≠ '/') = ['/'] := by
      rw [List.reverse_cons, List.dropWhile_append_of_pos]
      · rw [List.dropWhile_cons_of_neg (by simp)]
      · intro c hc
        simp only [ne_eq, decide_not, Bool.not_eq_true', decide_eq_false_iff_not]
        rintro rfl
        exact hg (List.mem_reverse.mp hc)
    rw [e]
    rfl
  · unfold join
    rw [if_neg (by rw [List.isPrefixOf_iff_prefix]; exact hf), if_pos]
    · simp
    · simp

example := C100_paths_root "include".toList "coo.hpp".toList "x.hpp".toList (by decide) (by decide)

/-- C100, the file an `#include "f"` in the directory `d` stands for is `d/f`, and the directory of `d/f` is `d`. -/
theorem C100_paths (a f b : Text) (ha : '"' ∉ a) (hf : '"' ∉ f) (d g : Text) (hd : d ≠ []) (hd2 : ¬ ['/'] <:+ d) (hg : '/' ∉ g) :
    quoted (a ++ '"' :: (f ++ '"' :: b)) = some f ∧ (¬ ['/'] <+: f → join d f = d ++ '/' :: f) ∧ join [] f = f ∧
    dirname (d ++ '/' :: g) = d ∧ dirname g = [] := by
  refine ⟨?_, ?_, ?_, ?_, ?_⟩
  · unfold quoted
    have e : (a ++ '"' :: (f ++ '"' :: b)).dropWhile (· ≠ '"') = '"' :: (f ++ '"' :: b) := by
      rw [List.dropWhile_append_of_pos]
      · rw [List.dropWhile_cons_of_neg (by simp)]
      · intro c hc
        simp only [ne_eq, decide_not, Bool.not_eq_true', decide_eq_false_iff_not]
        rintro rfl
        exact ha hc
    rw [e]
    simp only
    congr 1
    rw [List.takeWhile_append_of_pos]
    · rw [List.takeWhile_cons_of_neg (by simp), List.append_nil]
    · intro c hc
      simp only [ne_eq, decide_not, Bool.not_eq_true', decide_eq_false_iff_not]
      rintro rfl
      exact hf hc
  · intro hp
    unfold join
    rw [if_neg (by rw [List.isPrefixOf_iff_prefix]; exact hp), if_neg]
    · simp
    · simp only [Bool.or_eq_true, List.isEmpty_iff, List.isSuffixOf_iff_suffix, not_or]
      exact ⟨hd, hd2⟩
  · unfold join
    simp
  · unfold dirname
    have e : (d ++ '/' :: g).reverse.dropWhile (· ≠ '/') = '/' :: d.reverse := by
      rw [List.reverse_append, List.reverse_cons, List.append_assoc, List.dropWhile_append_of_pos]
      · rw [List.singleton_append, List.dropWhile_cons_of_neg (by simp)]
      · intro c hc
        simp only [ne_eq, decide_not, Bool.not_eq_true', decide_eq_false_iff_not]
        rintro rfl
        exact hg (List.mem_reverse.mp hc)
    rw [e]
    simp only [List.reverse_cons, List.reverse_reverse]
    have hlast : d.reverse.dropWhile (· = '/') = d.reverse := by
      cases hr : d.reverse with
      | nil => rfl
      | cons c cs =>
        rw [List.dropWhile_cons_of_neg]
        simp only [decide_eq_true_eq]
        rintro rfl
        refine hd2 ⟨cs.reverse, ?_⟩
        have := congrArg List.reverse hr
        rw [List.reverse_reverse] at this
        rw [this]
        simp
    rw [if_neg]
    · rw [List.reverse_append, List.reverse_singleton, List.singleton_append, List.dropWhile_cons_of_pos (by simp), hlast, List.reverse_reverse]
    · intro hall
      rw [List.all_append, Bool.and_eq_true, List.all_eq_true] at hall
      refine hd2 ?_
      obtain ⟨x, hx⟩ : ∃ x, d.getLast? = some x := by
        cases h : d.getLast? with
        | none => exact absurd (List.getLast?_eq_none_iff.mp h) hd
        | some x => exact ⟨x, rfl⟩
      have hm := List.mem_of_getLast? hx
      have := hall.1 x hm
      simp only [decide_eq_true_eq] at this
      subst this
      rw [List.getLast?_eq_some_iff] at hx
      obtain ⟨ys, rfl⟩ := hx
      exact ⟨ys, rfl⟩
  · unfold dirname
    have e : g.reverse.dropWhile (· ≠ '/') = [] := by
      have := List.dropWhile_append_of_pos (p := fun c => decide (c ≠ '/')) (l₁ := g.reverse) (l₂ := []) ?_
      · simpa using this
      intro c hc
      simp only [ne_eq, decide_not, Bool.not_eq_true', decide_eq_false_iff_not]
      rintro rfl
      exact hg (List.mem_reverse.mp hc)
    rw [e]
    rfl

/-! ### instances -/

/-- The end of the text of `write_header`. -/
def exHdr : Text := "/** PIGO */\n\n#ifndef PIGO_HPP\n#define PIGO_HPP\n\n".toList

/-- A library laid out as PIGO is. -/
def exMain : Text :=
  "#ifndef PIGO_HPP\n#include <string>\nnamespace pigo {\n    class File;\n}\n#include \"pigo/coo.hpp\"\n#include \"pigo/impl/coo.impl.hpp\"\n#endif\n".toList
def exCoo : Text := "#include <memory>\n#include <string>\nnamespace pigo {\n    class COO;\n}\n".toList
def exImpl : Text := "#ifdef _OPENMP\n#include <omp.h>\n#endif\nnamespace pigo {\n    void read() {\n    }\n}\n".toList

def exFs (fn : Text) : Option Text :=
  if fn = "include/pigo.hpp".toList then some exMain
  else if fn = "include/pigo/coo.hpp".toList then some exCoo
  else if fn = "include/pigo/impl/coo.impl.hpp".toList then some exImpl
  else none

theorem exHdr_ok : Header exHdr := by
  unfold Header
  decide +kernel

theorem exNeat : Neat exMain ∧ Neat exCoo ∧ Neat exImpl := by
  unfold Neat
  decide +kernel

theorem exFs_cases {q txt : Text} (h : exFs q = some txt) : txt = exMain ∨ txt = exCoo ∨ txt = exImpl := by
  unfold exFs at h
  generalize exMain = m at h ⊢
  generalize exCoo = c at h ⊢
  generalize exImpl = i at h ⊢
  split at h
  · exact .inl (Option.some.inj h).symm
  · split at h
    · exact .inr (.inl (Option.some.inj h).symm)
    · split at h
      · exact .inr (.inr (Option.some.inj h).symm)
      · cases h

theorem exFs_main : exFs "include/pigo.hpp".toList = some exMain := by
  unfold exFs
  rw [if_pos rfl]

theorem exLibrary : Library exFs "include/pigo.hpp".toList where
  files := by
    intro q txt h
    rcases exFs_cases h with h | h | h
    · rw [h]; exact exNeat.1
    · rw [h]; exact exNeat.2.1
    · rw [h]; exact exNeat.2.2
  main := by
    intro txt h
    rw [exFs_main] at h
    rw [← Option.some.inj h]
    refine ⟨["#ifndef PIGO_HPP\n".toList, "#include <string>\n".toList], "namespace pigo {\n".toList, ["    class File;\n".toList],
      ["#include \"pigo/coo.hpp\"\n".toList, "#include \"pigo/impl/coo.impl.hpp\"\n".toList, "#endif\n".toList], ?_⟩
    decide +kernel

/-- What the compiler sees for `include/pigo.hpp`. -/
def exLines : List Text :=
  ["#ifndef PIGO_HPP\n", "#include <string>\n", "namespace pigo {\n", "    class File;\n", "}\n", "#include <memory>\n", "#include <string>\n",
   "namespace pigo {\n", "    class COO;\n", "}\n", "#ifdef _OPENMP\n", "#include <omp.h>\n", "#endif\n", "namespace pigo {\n",
   "    void read() {\n", "    }\n", "}\n", "#endif\n"].map String.toList

theorem exExpand : expand exFs 4 "include/pigo.hpp".toList =
    some (["include/pigo.hpp".toList, "include/pigo/coo.hpp".toList, "include/pigo/impl/coo.impl.hpp".toList], exLines) := by
  decide +kernel

/-- The released header of this library exists and has its code in one namespace. -/
example : ∃ out, createSingle exHdr exFs 4 "include/pigo.hpp".toList = .ok out ∧ inside false (linesOf out) =
    ["    class File;\n".toList, "    class COO;\n".toList, "    void read() {\n".toList, "    }\n".toList, "\n".toList] := by
  obtain ⟨out, ho⟩ := (C100_written_iff exHdr exFs 4 _).mpr ⟨_, _, exExpand, by decide +kernel⟩
  refine ⟨out, ho, ?_⟩
  rw [C100_same_code exHdr exHdr_ok exFs 4 _ exLibrary _ _ exExpand out ho]
  decide +kernel

/-- C100: without OpenMP the files of this library do not include `omp.h`, but the released header does. -/
theorem C100_openmp_violated : "#include <omp.h>\n".toList ∉ active [] [] exLines ∧
    ∃ out, createSingle exHdr exFs 4 "include/pigo.hpp".toList = .ok out ∧ "#include <omp.h>\n".toList ∈ active [] [] (linesOf out) := by
  refine ⟨by decide +kernel, ?_⟩
  obtain ⟨out, ho⟩ := (C100_written_iff exHdr exFs 4 _).mpr ⟨_, _, exExpand, by decide +kernel⟩
  exact ⟨out, ho, C100_unconditional_violated exHdr exHdr_ok exFs 4 _ exLibrary _ _ exExpand out ho [] (by decide +kernel) _
    (by decide +kernel) (by decide +kernel)⟩

/-- Two files that include the same third one (which C++ allows with include guards). -/
def diamondFs (fn : Text) : Option Text :=
  if fn = "pigo.hpp".toList then some "#include \"pigo/a.hpp\"\n#include \"pigo/b.hpp\"\n".toList
  else if fn = "pigo/a.hpp".toList then some "#include \"../pigo/c.hpp\"\n".toList
  else if fn = "pigo/b.hpp".toList then some "#include \"../pigo/c.hpp\"\n".toList
  else if fn = "pigo/../pigo/c.hpp".toList then some "namespace pigo {\n}\n".toList
  else none

example : ∃ vs ls, expand diamondFs 5 "pigo.hpp".toList = some (vs, ls) ∧ ¬ vs.Nodup := by
  refine ⟨["pigo.hpp".toList, "pigo/a.hpp".toList, "pigo/../pigo/c.hpp".toList, "pigo/b.hpp".toList, "pigo/../pigo/c.hpp".toList],
    ["namespace pigo {\n".toList, "}\n".toList, "namespace pigo {\n".toList, "}\n".toList], ?_, ?_⟩ <;> decide +kernel

end Pigo.Release
