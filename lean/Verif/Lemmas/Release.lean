import Verif.Spec.Release

/-!
# Lemmas on generate_release.py
-/

namespace Pigo.Release
open Spec

/-! ## lines -/

/-- A complete line. -/
def Full (l : Text) : Prop := ∃ a, l = a ++ ['\n'] ∧ '\n' ∉ a

theorem linesOf_full {l : Text} (h : Full l) (t : Text) : linesOf (l ++ t) = l :: linesOf t := by
  obtain ⟨a, rfl, ha⟩ := h
  induction a with
  | nil => simp [linesOf]
  | cons c cs ih =>
    simp only [List.mem_cons, not_or] at ha
    simp only [List.cons_append, linesOf]
    rw [if_neg (fun hc => ha.1 hc.symm), ih ha.2]

theorem linesOf_flatten {ls : List Text} (h : ∀ l ∈ ls, Full l) (t : Text) : linesOf (ls.flatten ++ t) = ls ++ linesOf t := by
  induction ls with
  | nil => rfl
  | cons l ls ih =>
    rw [List.flatten_cons, List.append_assoc, linesOf_full (h l (List.mem_cons_self ..)),
      ih (fun x hx => h x (List.mem_cons_of_mem _ hx)), List.cons_append]

theorem flatten_linesOf (t : Text) : (linesOf t).flatten = t := by
  induction t with
  | nil => rfl
  | cons c cs ih =>
    simp only [linesOf]
    split
    · rename_i h; subst h; simp [ih]
    · split
      · rename_i h; rw [h] at ih; simp at ih; subst ih; rfl
      · rename_i h; rw [h] at ih; rw [← ih]; rfl

theorem linesOf_all_full {t : Text} (h : t = [] ∨ t.getLast? = some '\n') : ∀ l ∈ linesOf t, Full l := by
  induction t with
  | nil => intro l hl; cases hl
  | cons c cs ih =>
    intro l hl
    have hcs : cs = [] ∧ c = '\n' ∨ (cs ≠ [] ∧ cs.getLast? = some '\n') := by
      rcases h with h | h
      · cases h
      · cases cs with
        | nil => left; simpa using h
        | cons d ds => right; exact ⟨by simp, by rw [List.getLast?_cons_cons] at h; exact h⟩
    simp only [linesOf] at hl
    split at hl
    · rename_i hc
      rcases List.mem_cons.mp hl with rfl | hl
      · exact ⟨[], rfl, by simp⟩
      · refine ih ?_ l hl
        rcases hcs with ⟨rfl, _⟩ | ⟨_, h⟩
        · exact .inl rfl
        · exact .inr h
    · rename_i hc
      rcases hcs with ⟨_, rfl⟩ | ⟨hne, hlast⟩
      · exact absurd rfl hc
      · have ih' := ih (.inr hlast)
        split at hl
        · rename_i h0
          have := flatten_linesOf cs
          rw [h0] at this
          exact absurd this.symm hne
        · rename_i l0 ls0 h0
          rw [h0] at ih'
          rcases List.mem_cons.mp hl with rfl | hl
          · obtain ⟨a, rfl, ha⟩ := ih' l0 (List.mem_cons_self ..)
            exact ⟨c :: a, rfl, by simp only [List.mem_cons, not_or]; exact ⟨fun h => hc h.symm, ha⟩⟩
          · exact ih' l (List.mem_cons_of_mem _ hl)

/-! ## the scanner for the namespace -/

/-- Whether the text ends inside the namespace. -/
def after : Bool → List Text → Bool
  | b, [] => b
  | true, l :: ls => after (!closes l) ls
  | false, l :: ls => after (opens l) ls

theorem inside_append (b : Bool) (xs ys : List Text) : inside b (xs ++ ys) = inside b xs ++ inside (after b xs) ys := by
  induction xs generalizing b with
  | nil => cases b <;> rfl
  | cons x xs ih =>
    cases b with
    | false => simp only [List.cons_append, inside, after]; exact ih _
    | true =>
      simp only [List.cons_append, inside, after]
      cases hc : closes x with
      | true => simp only [if_true, Bool.not_true]; exact ih _
      | false => simp only [Bool.false_eq_true, if_false, Bool.not_false, List.cons_append]; rw [ih]

theorem after_append (b : Bool) (xs ys : List Text) : after b (xs ++ ys) = after (after b xs) ys := by
  induction xs generalizing b with
  | nil => cases b <;> rfl
  | cons x xs ih => cases b <;> (simp only [List.cons_append, after]; exact ih _)

theorem inside_of_not_opens {ls : List Text} (h : ∀ l ∈ ls, opens l = false) : inside false ls = [] ∧ after false ls = false := by
  induction ls with
  | nil => exact ⟨rfl, rfl⟩
  | cons l ls ih =>
    simp only [inside, after]
    rw [h l (List.mem_cons_self ..)]
    exact ih (fun x hx => h x (List.mem_cons_of_mem _ hx))

theorem inside_of_not_closes {ls : List Text} (h : ∀ l ∈ ls, closes l = false) : inside true ls = ls ∧ after true ls = true := by
  induction ls with
  | nil => exact ⟨rfl, rfl⟩
  | cons l ls ih =>
    simp only [inside, after]
    rw [h l (List.mem_cons_self ..)]
    obtain ⟨h1, h2⟩ := ih (fun x hx => h x (List.mem_cons_of_mem _ hx))
    simp [h1, h2]

/-! ## the visited files -/

/-- The files `vs` can be read one after the other. -/
def Fresh (vs seen : List Text) : Prop := vs.Nodup ∧ ∀ v ∈ vs, v ∉ seen

theorem Fresh.append {vs ws seen : List Text} : Fresh (vs ++ ws) seen ↔ Fresh vs seen ∧ Fresh ws (vs.reverse ++ seen) := by
  unfold Fresh
  simp only [List.nodup_append, List.mem_append, List.mem_reverse]
  constructor
  · rintro ⟨⟨h1, h2, h3⟩, h4⟩
    exact ⟨⟨h1, fun v hv => h4 v (.inl hv)⟩, h2, fun v hv h => h.elim (fun h => h3 v h v hv rfl) (fun h => h4 v (.inr hv) h)⟩
  · rintro ⟨⟨h1, h2⟩, h3, h4⟩
    refine ⟨⟨h1, h3, ?_⟩, ?_⟩
    · rintro a ha b hb rfl; exact h4 a hb (.inl ha)
    · rintro v (hv | hv)
      · exact h2 v hv
      · exact fun h => h4 v hv (.inr h)

theorem Fresh.nil (seen : List Text) : Fresh [] seen := ⟨List.nodup_nil, fun _ h => by cases h⟩

/-! ## one file -/

/-- The replacement of a line in `expand`. -/
def part (fs : Text → Option Text) (k : Nat) (path l : Text) : Option (List Text × List Text) :=
  if isOwn l then do
    let f ← quoted l
    expand fs k (join path f)
  else some ([], [l])

theorem expand_succ (fs : Text → Option Text) (k : Nat) (fn : Text) : expand fs (k + 1) fn = (do
    let txt ← fs fn
    let parts ← (linesOf txt).mapM (part fs k (dirname fn))
    pure (fn :: parts.flatMap (·.1), parts.flatMap (·.2))) := rfl

/-- What is expected of `get_code` on an included file. -/
def Good (fs : Text → Option Text) (k : Nat) (rec : Text → List Text → Except Failure (List Text × List Text × Text)) : Prop :=
  ∀ p s vs ls, expand fs k p = some (vs, ls) →
    (Fresh vs s → ∃ code, rec p s = .ok (vs.reverse ++ s, ls.filter isSys, code) ∧
      ((∀ q txt, fs q = some txt → Neat txt) → code = (inside false ls).flatten ∧ after false ls = false)) ∧
    (¬ Fresh vs s → rec p s = .error .loop)

theorem isSys_eq (l : Text) : isSys l = (isInclude l && !contains "pigo".toList l) := by
  unfold isSys isOwn
  cases isInclude l <;> simp

/-- One line that is not an `#include` of an own file. -/
theorem step_plain (rec : Text → List Text → Except Failure (List Text × List Text × Text)) (path : Text) (root : Bool) (st : State)
    {l : Text} (h : isOwn l = false) :
    step rec path root st l = .ok { seen := st.seen, includes := st.includes ++ [l].filter isSys,
                                    code := st.code ++ (if st.inNs then (if closes l then [] else l) else if opens l && root then l else []),
                                    inNs := if st.inNs then !closes l else opens l } := by
  obtain ⟨seen, inc, code, b⟩ := st
  have hs := isSys_eq l
  unfold isOwn at h
  unfold step
  cases hi : isInclude l with
  | false =>
    rw [hi] at hs
    simp only [Bool.false_and] at hs
    cases b <;> cases hc : closes l <;> cases ho : opens l <;> cases root <;> simp [hs, pure, Except.pure, bind, Except.bind]
  | true =>
    rw [hi] at h hs
    simp only [Bool.true_and] at h hs
    rw [h] at hs
    simp only [Bool.not_false] at hs
    simp only [h, hi, if_true, Bool.false_eq_true, if_false]
    cases b <;> cases hc : closes l <;> cases ho : opens l <;> cases root <;> simp [hs, pure, Except.pure, bind, Except.bind]

/-- One `#include` of an own file. -/
theorem step_own (rec : Text → List Text → Except Failure (List Text × List Text × Text)) (path : Text) (root : Bool) (st : State)
    {l f : Text} (h : isOwn l = true) (hq : quoted l = some f) :
    step rec path root st l = (do
      let (seen, inc, code) ← rec (join path f) st.seen
      pure { seen := seen, includes := st.includes ++ inc,
             code := st.code ++ code ++ (if st.inNs then (if closes l then [] else l) else if opens l && root then l else []),
             inNs := if st.inNs then !closes l else opens l }) := by
  obtain ⟨seen, inc, code, b⟩ := st
  unfold isOwn at h
  simp only [Bool.and_eq_true] at h
  unfold step
  simp only [h.1, h.2, if_true, hq]
  cases hr : rec (join path f) seen with
  | error e => rfl
  | ok r =>
    obtain ⟨s, i, c⟩ := r
    cases b <;> cases hc : closes l <;> cases ho : opens l <;> cases root <;> simp [pure, Except.pure, bind, Except.bind]

theorem mapM_cons_some {α β : Type} {f : α → Option β} {a : α} {as : List α} {bs : List β} (h : (a :: as).mapM f = some bs) :
    ∃ b bs', f a = some b ∧ as.mapM f = some bs' ∧ bs = b :: bs' := by
  rw [List.mapM_cons] at h
  cases hf : f a with
  | none => rw [hf] at h; cases h
  | some b =>
    rw [hf] at h
    cases hm : as.mapM f with
    | none => rw [hm] at h; cases h
    | some bs' => rw [hm] at h; cases h; exact ⟨b, bs', rfl, rfl, rfl⟩

/-- The loop over the lines of a file. -/
theorem fold_good {fs : Text → Option Text} {k : Nat} {rec : Text → List Text → Except Failure (List Text × List Text × Text)}
    (hrec : Good fs k rec) (path : Text) (root : Bool) : ∀ (lines : List Text) (st : State) (parts : List (List Text × List Text)),
    lines.mapM (part fs k path) = some parts →
    (Fresh (parts.flatMap (·.1)) st.seen → ∃ code b, lines.foldlM (step rec path root) st =
        .ok { seen := (parts.flatMap (·.1)).reverse ++ st.seen, includes := st.includes ++ (parts.flatMap (·.2)).filter isSys,
              code := st.code ++ code, inNs := b } ∧
      ((∀ q txt, fs q = some txt → Neat txt) → (root = true → ∀ l ∈ lines, opens l = false) → neat st.inNs lines = true →
        code = (inside st.inNs (parts.flatMap (·.2))).flatten ∧ after st.inNs (parts.flatMap (·.2)) = false ∧ b = false)) ∧
    (¬ Fresh (parts.flatMap (·.1)) st.seen → lines.foldlM (step rec path root) st = .error .loop) := by
  intro lines
  induction lines with
  | nil =>
    intro st parts hp
    simp only [List.mapM_nil] at hp
    cases hp
    refine ⟨fun _ => ⟨[], st.inNs, by simp [pure, Except.pure], ?_⟩, fun h => absurd (Fresh.nil _) h⟩
    intro _ _ hn
    simp only [neat] at hn
    have : st.inNs = false := by simpa using hn
    rw [this]
    exact ⟨rfl, rfl, rfl⟩
  | cons l lines ih =>
    intro st parts hp
    obtain ⟨⟨vs, ls⟩, parts, h1, h2, rfl⟩ := mapM_cons_some hp
    simp only [List.flatMap_cons, List.foldlM_cons]
    unfold part at h1
    cases ho : isOwn l with
    | false =>
      rw [ho] at h1
      simp only [Bool.false_eq_true, if_false] at h1
      cases h1
      rw [step_plain rec path root st ho]
      simp only [List.nil_append, bind, Except.bind]
      obtain ⟨ia, ib⟩ := ih { seen := st.seen, includes := st.includes ++ [l].filter isSys,
                              code := st.code ++ (if st.inNs then (if closes l then [] else l) else if opens l && root then l else []),
                              inNs := if st.inNs then !closes l else opens l } parts h2
      refine ⟨fun hf => ?_, fun hf => ib hf⟩
      obtain ⟨code, b, e, hn⟩ := ia hf
      refine ⟨(if st.inNs then (if closes l then [] else l) else if opens l && root then l else []) ++ code, b, ?_, ?_⟩
      · rw [e]
        simp only [List.filter_append, List.append_assoc]
      · intro hN hroot hneat
        have hroot' : root = true → ∀ x ∈ lines, opens x = false := fun h x hx => hroot h x (List.mem_cons_of_mem _ hx)
        dsimp only at hn
        cases hb : st.inNs with
        | true =>
          rw [hb] at hneat hn
          simp only [neat, Bool.and_eq_true] at hneat
          simp only [if_true] at hn
          obtain ⟨c1, c2, c3⟩ := hn hN hroot' hneat.2
          refine ⟨?_, ?_, c3⟩
          · rw [c1]
            simp only [List.cons_append, List.nil_append, inside, if_true]
            cases closes l <;> simp
          · simp only [List.cons_append, List.nil_append, after]; exact c2
        | false =>
          rw [hb] at hneat hn
          simp only [neat, Bool.and_eq_true] at hneat
          simp only [Bool.false_eq_true, if_false] at hn
          obtain ⟨c1, c2, c3⟩ := hn hN hroot' hneat.2
          have : (opens l && root) = false := by
            cases hr : root with
            | false => simp
            | true => rw [hroot hr l (List.mem_cons_self ..)]; rfl
          refine ⟨?_, ?_, c3⟩
          · rw [c1]
            simp only [List.cons_append, List.nil_append, inside, this, Bool.false_eq_true, if_false]
          · simp only [List.cons_append, List.nil_append, after]; exact c2
    | true =>
      rw [ho] at h1
      simp only [if_true] at h1
      cases hq : quoted l with
      | none => rw [hq] at h1; cases h1
      | some f =>
        rw [hq] at h1
        simp only [Option.bind_eq_bind, Option.bind_some] at h1
        obtain ⟨ga, gb⟩ := hrec (join path f) st.seen vs ls h1
        rw [step_own rec path root st ho hq]
        refine ⟨fun hf => ?_, fun hf => ?_⟩
        · obtain ⟨f1, f2⟩ := Fresh.append.mp hf
          obtain ⟨code1, e1, n1⟩ := ga f1
          rw [e1]
          simp only [bind, Except.bind, pure, Except.pure]
          obtain ⟨ia, _⟩ := ih { seen := vs.reverse ++ st.seen, includes := st.includes ++ ls.filter isSys,
                                 code := st.code ++ code1 ++ (if st.inNs then (if closes l then [] else l) else if opens l && root then l else []),
                                 inNs := if st.inNs then !closes l else opens l } parts h2
          obtain ⟨code, b, e, hn⟩ := ia f2
          refine ⟨code1 ++ (if st.inNs then (if closes l then [] else l) else if opens l && root then l else []) ++ code, b, ?_, ?_⟩
          · rw [e]
            simp only [List.filter_append, List.append_assoc, List.reverse_append]
          · intro hN hroot hneat
            have hroot' : root = true → ∀ x ∈ lines, opens x = false := fun h x hx => hroot h x (List.mem_cons_of_mem _ hx)
            dsimp only at hn
            obtain ⟨d1, d2⟩ := n1 hN
            cases hb : st.inNs with
            | true =>
              rw [hb] at hneat
              simp [neat, ho] at hneat
            | false =>
              rw [hb] at hneat hn
              simp only [neat, Bool.and_eq_true, ho, Bool.true_and, Bool.not_eq_true'] at hneat
              rw [hneat.1] at hn ⊢
              simp only [Bool.false_eq_true, if_false] at hn
              obtain ⟨c1, c2, c3⟩ := hn hN hroot' (by have := hneat.2; rw [hneat.1] at this; exact this)
              refine ⟨?_, ?_, c3⟩
              · rw [inside_append, d2, c1, d1]
                simp
              · rw [after_append, d2, c2]
        · by_cases f1 : Fresh vs st.seen
          · obtain ⟨code1, e1, _⟩ := ga f1
            rw [e1]
            simp only [bind, Except.bind, pure, Except.pure]
            exact (ih _ parts h2).2 (fun f2 => hf (Fresh.append.mpr ⟨f1, f2⟩))
          · rw [gb f1]; rfl

/-- `get_code` on an included file. -/
theorem getCode_good (fs : Text → Option Text) : ∀ k, Good fs k (fun p s => getCode fs k p false s) := by
  intro k
  induction k with
  | zero => intro p s vs ls h; cases h
  | succ k ih =>
    intro p s vs ls h
    rw [expand_succ] at h
    cases htxt : fs p with
    | none => rw [htxt] at h; cases h
    | some txt =>
      rw [htxt] at h
      simp only [Option.bind_eq_bind, Option.bind_some] at h
      cases hparts : (linesOf txt).mapM (part fs k (dirname p)) with
      | none => rw [hparts] at h; cases h
      | some parts =>
        rw [hparts] at h
        simp only [Option.bind_some, Option.pure_def, Option.some.injEq, Prod.mk.injEq] at h
        obtain ⟨rfl, rfl⟩ := h
        simp only [getCode, htxt]
        obtain ⟨fa, fb⟩ := fold_good ih (dirname p) false (linesOf txt) { seen := p :: s, includes := [], code := [], inNs := false } parts hparts
        have hfr : Fresh (p :: parts.flatMap (·.1)) s ↔ p ∉ s ∧ Fresh (parts.flatMap (·.1)) (p :: s) := by
          have := Fresh.append (vs := [p]) (ws := parts.flatMap (·.1)) (seen := s)
          simp only [List.singleton_append, List.reverse_singleton] at this
          rw [this]
          unfold Fresh
          simp
        refine ⟨fun hf => ?_, fun hf => ?_⟩
        · obtain ⟨f1, f2⟩ := hfr.mp hf
          obtain ⟨code, b, e, hn⟩ := fa f2
          rw [if_neg f1, e]
          refine ⟨code, ?_, ?_⟩
          · simp [bind, Except.bind, pure, Except.pure]
          · intro hN
            obtain ⟨c1, c2, _⟩ := hn hN (fun h => by cases h) (hN p txt htxt).1
            exact ⟨c1, c2⟩
        · by_cases f1 : p ∈ s
          · rw [if_pos f1]
          · rw [if_neg f1, fb (fun f2 => hf (hfr.mpr ⟨f1, f2⟩))]
            rfl

end Pigo.Release
