import Verif.Lemmas.RaceBin
import Verif.Lemmas.RaceErase
import Verif.Lemmas.CsrConvert

/-!
# Absence of races: COO to CSR
-/

namespace Pigo

open Spec (Access reads writes atomics Race Conflict tagged)

variable {α β S W : Type}

theorem runActs_snd (step : α → S → M S) : ∀ (l : List (Nat × α)) (s : S),
    runActs (fun p => step p.2) l s = runActs step (l.map Prod.snd) s
  | [], _ => rfl
  | a :: l, s => by
    simp only [List.map_cons, runActs]
    cases step a.2 s with
    | error f => rfl
    | ok s' => exact runActs_snd step l s'

theorem tagged_flatten (threads : List (List α)) : ((tagged threads).flatten).map Prod.snd = threads.flatten := by
  unfold tagged
  rw [List.map_flatten]
  congr 1
  apply List.ext_getElem?
  intro i
  simp only [List.getElem?_map, List.getElem?_mapIdx]
  cases threads[i]? with
  | none => rfl
  | some l => simp [Function.comp_def]

/-- An invariant of the steps holds after a successful run. -/
theorem runActs_inv {step : α → S → M S} {I : S → Prop} (h : ∀ a s s', I s → step a s = .ok s' → I s') :
    ∀ (l : List α) (s s' : S), I s → runActs step l s = .ok s' → I s'
  | [], s, s', hs, hr => by cases hr; exact hs
  | a :: l, s, s', hs, hr => by
    unfold runActs at hr
    cases h1 : step a s with
    | error f => rw [h1] at hr; cases hr
    | ok s1 => rw [h1] at hr; exact runActs_inv h l s1 s' (h a s s1 hs h1) hr

/-- A successful run also runs a prefix. -/
theorem runActs_app {step : α → S → M S} {l l' : List α} {s s' : S} (h : runActs step (l ++ l') s = .ok s') :
    ∃ s1, runActs step l s = .ok s1 ∧ runActs step l' s1 = .ok s' := by
  rw [runActs_append] at h
  cases h1 : runActs step l s with
  | error f => rw [h1] at h; cases h
  | ok s1 => rw [h1] at h; exact ⟨s1, rfl, h⟩

/-! ## The scatter loop -/

theorem load_inv {a : List α} {i : Nat} {v : α} (h : load a i = .ok v) : a[i]? = some v := by
  unfold load at h
  cases h1 : a[i]? with
  | none => rw [h1] at h; cases h
  | some w => rw [h1] at h; cases h; rfl

theorem store_inv {a a' : List α} {i : Nat} {v : α} (h : store a i v = .ok a') : i < a.length ∧ a' = a.set i v := by
  unfold store at h
  split at h
  · rename_i hi; cases h; exact ⟨hi, rfl⟩
  · cases h

/-- What holds while the scatter loop runs: captured positions of a row are different and between the remaining degree and the
degree. -/
structure ScatInv (x label : List Nat) (s : Scatter W) : Prop where
  le : ∀ (v d : Nat), s.degs[v]? = some d → ∃ d0, label[v]? = some d0 ∧ d ≤ d0
  cap : ∀ (e p : Nat), s.pos e = some p → ∃ v d d0, x[e]? = some v ∧ s.degs[v]? = some d ∧ label[v]? = some d0 ∧ d < p ∧ p ≤ d0
  ne : ∀ (e f v p q : Nat), e ≠ f → x[e]? = some v → x[f]? = some v → s.pos e = some p → s.pos f = some q → p ≠ q

theorem scatInv_step {x y label offsets : List Nat} {w : List W} (a : ScatAct) (s s' : Scatter W) (hs : ScatInv x label s)
    (h : scatStep x y w offsets a s = .ok s') : ScatInv x label s' := by
  cases a with
  | wr e =>
    simp only [scatStep] at h
    cases h1 : load y e with
    | error f => rw [h1] at h; cases h
    | ok v =>
      cases h2 : scatSlot x offsets s e with
      | error f => rw [h1] at h; simp only [ok_bind] at h; rw [h2] at h; cases h
      | ok p =>
        cases h3 : store s.endpoints p v with
        | error f => rw [h1] at h; simp only [ok_bind] at h; rw [h2] at h; simp only [ok_bind] at h; rw [h3] at h; cases h
        | ok ep =>
          rw [h1] at h; simp only [ok_bind] at h; rw [h2] at h; simp only [ok_bind] at h; rw [h3] at h; cases h
          exact ⟨hs.le, hs.cap, hs.ne⟩
  | ww e =>
    simp only [scatStep] at h
    cases h1 : load w e with
    | error f => rw [h1] at h; cases h
    | ok v =>
      cases h2 : scatSlot x offsets s e with
      | error f => rw [h1] at h; simp only [ok_bind] at h; rw [h2] at h; cases h
      | ok p =>
        cases h3 : store s.weights p v with
        | error f => rw [h1] at h; simp only [ok_bind] at h; rw [h2] at h; simp only [ok_bind] at h; rw [h3] at h; cases h
        | ok ep =>
          rw [h1] at h; simp only [ok_bind] at h; rw [h2] at h; simp only [ok_bind] at h; rw [h3] at h; cases h
          exact ⟨hs.le, hs.cap, hs.ne⟩
  | cap e =>
    simp only [scatStep] at h
    cases h1 : load x e with
    | error f => rw [h1] at h; cases h
    | ok v =>
      rw [h1] at h; simp only [ok_bind] at h
      cases h2 : load s.degs v with
      | error f => rw [h2] at h; cases h
      | ok d =>
        rw [h2] at h; simp only [ok_bind] at h
        split at h
        · cases h
        · rename_i hd
          cases h3 : store s.degs v (d - 1) with
          | error f => rw [h3] at h; cases h
          | ok degs =>
            rw [h3] at h; cases h
            obtain ⟨hlt, rfl⟩ := store_inv h3
            have hx := load_inv h1
            have hdv := load_inv h2
            obtain ⟨d0, hl0, hd0⟩ := hs.le v d hdv
            have hget : ∀ u, (s.degs.set v (d - 1))[u]? = if v = u then some (d - 1) else s.degs[u]? := by
              intro u
              rw [List.getElem?_set]
              by_cases hu : v = u
              · rw [if_pos hu, if_pos hu, if_pos (hu ▸ hlt)]
              · rw [if_neg hu, if_neg hu]
            refine ⟨?_, ?_, ?_⟩
            · intro u k hk
              show ∃ d0, label[u]? = some d0 ∧ k ≤ d0
              rw [show (s.degs.set v (d - 1))[u]? = _ from hget u] at hk
              split at hk
              · rename_i hu
                subst hu
                injection hk with hk
                exact ⟨d0, hl0, by omega⟩
              · exact hs.le u k hk
            · intro f p hp
              simp only at hp
              by_cases hf : f = e
              · rw [if_pos hf] at hp
                injection hp with hp
                subst hp; subst hf
                exact ⟨v, d - 1, d0, hx, by simp only; rw [hget, if_pos rfl], hl0, by omega, hd0⟩
              · rw [if_neg hf] at hp
                obtain ⟨u, k, k0, h4, h5, h6, h7, h8⟩ := hs.cap f p hp
                by_cases hu : v = u
                · subst hu
                  rw [hdv] at h5
                  injection h5 with h5
                  exact ⟨v, d - 1, k0, h4, by simp only; rw [hget, if_pos rfl], h6, by omega, h8⟩
                · exact ⟨u, k, k0, h4, by simp only; rw [hget, if_neg hu]; exact h5, h6, h7, h8⟩
            · intro f g u p q hfg hxf hxg hpf hpg
              simp only at hpf hpg
              by_cases hf : f = e
              · rw [if_pos hf] at hpf
                rw [if_neg (by rw [← hf]; exact Ne.symm hfg)] at hpg
                injection hpf with hpf
                obtain ⟨u', k, k0, h4, h5, h6, h7, h8⟩ := hs.cap g q hpg
                rw [hxg] at h4
                injection h4 with h4
                rw [hf, hx] at hxf
                injection hxf with hxf
                have : u' = v := by omega
                rw [this, hdv] at h5
                injection h5 with h5
                omega
              · rw [if_neg hf] at hpf
                by_cases hg : g = e
                · rw [if_pos hg] at hpg
                  injection hpg with hpg
                  obtain ⟨u', k, k0, h4, h5, h6, h7, h8⟩ := hs.cap f p hpf
                  rw [hxf] at h4
                  injection h4 with h4
                  rw [hg, hx] at hxg
                  injection hxg with hxg
                  have : u' = v := by omega
                  rw [this, hdv] at h5
                  injection h5 with h5
                  omega
                · rw [if_neg hg] at hpg
                  exact hs.ne f g u p q hfg hxf hxg hpf hpg

/-- The captured position of an edge stays until the edge is captured again. -/
theorem scat_pos_keep {x y offsets : List Nat} {w : List W} {e : Nat} : ∀ (l : List ScatAct) (s s' : Scatter W), e ∉ caps l →
    runActs (scatStep x y w offsets) l s = .ok s' → s'.pos e = s.pos e := by
  intro l
  induction l with
  | nil => intro s s' _ h; cases h; rfl
  | cons a l ih =>
    intro s s' he h
    unfold runActs at h
    cases h1 : scatStep x y w offsets a s with
    | error f => rw [h1] at h; cases h
    | ok s1 =>
      rw [h1] at h
      have he' : e ∉ caps l := by
        intro hc; apply he; cases a <;> simp [caps, hc]
      rw [ih s1 s' he' h]
      cases a with
      | wr f =>
        simp only [scatStep] at h1
        cases h2 : load y f with
        | error g => rw [h2] at h1; cases h1
        | ok v =>
          cases h3 : scatSlot x offsets s f with
          | error g => rw [h2] at h1; simp only [ok_bind] at h1; rw [h3] at h1; cases h1
          | ok p =>
            rw [h2] at h1; simp only [ok_bind] at h1; rw [h3] at h1; simp only [ok_bind] at h1
            cases h4 : store s.endpoints p v with
            | error g => rw [h4] at h1; cases h1
            | ok ep => rw [h4] at h1; cases h1; rfl
      | ww f =>
        simp only [scatStep] at h1
        cases h2 : load w f with
        | error g => rw [h2] at h1; cases h1
        | ok v =>
          cases h3 : scatSlot x offsets s f with
          | error g => rw [h2] at h1; simp only [ok_bind] at h1; rw [h3] at h1; cases h1
          | ok p =>
            rw [h2] at h1; simp only [ok_bind] at h1; rw [h3] at h1; simp only [ok_bind] at h1
            cases h4 : store s.weights p v with
            | error g => rw [h4] at h1; cases h1
            | ok ep => rw [h4] at h1; cases h1; rfl
      | cap f =>
        have hne : e ≠ f := by
          intro h; apply he; simp [caps, h]
        simp only [scatStep] at h1
        cases h2 : load x f with
        | error g => rw [h2] at h1; cases h1
        | ok v =>
          rw [h2] at h1; simp only [ok_bind] at h1
          cases h3 : load s.degs v with
          | error g => rw [h3] at h1; cases h1
          | ok d =>
            rw [h3] at h1; simp only [ok_bind] at h1
            split at h1
            · cases h1
            · cases h4 : store s.degs v (d - 1) with
              | error g => rw [h4] at h1; cases h1
              | ok ep => rw [h4] at h1; cases h1; simp only [if_neg hne]

theorem scatSlot_pos {x offsets : List Nat} {s s' : Scatter W} {e : Nat} (h : s'.pos e = s.pos e) :
    scatSlot x offsets s' e = scatSlot x offsets s e := by
  unfold scatSlot; rw [h]

theorem scatSlot_inv {x offsets : List Nat} {s : Scatter W} {e q : Nat} (h : scatSlot x offsets s e = .ok q) :
    ∃ v o p, x[e]? = some v ∧ offsets[v + 1]? = some o ∧ s.pos e = some p ∧ p ≤ o ∧ q = o - p := by
  unfold scatSlot at h
  cases h1 : load x e with
  | error f => rw [h1] at h; cases h
  | ok v =>
    rw [h1] at h; simp only [ok_bind] at h
    cases h2 : load offsets (v + 1) with
    | error f => rw [h2] at h; cases h
    | ok o =>
      rw [h2] at h; simp only [ok_bind] at h
      cases h3 : s.pos e with
      | none => rw [h3] at h; cases h
      | some p =>
        rw [h3] at h
        simp only at h
        split at h
        · rename_i hp
          cases h
          exact ⟨v, o, p, load_inv h1, load_inv h2, rfl, hp, rfl⟩
        · cases h

theorem take_sum_mono (l : List Nat) {a b : Nat} (h : a ≤ b) : (l.take a).sum ≤ (l.take b).sum := by
  obtain ⟨k, rfl⟩ : ∃ k, b = a + k := ⟨b - a, by omega⟩
  rw [List.take_add, List.sum_append]
  omega

/-- Different edges get different slots. -/
theorem scatSlot_ne {x label : List Nat} {s : Scatter W} (hs : ScatInv x label s) {e f q r : Nat} (hef : e ≠ f)
    (he : scatSlot x (offsetsOf label) s e = .ok q) (hf : scatSlot x (offsetsOf label) s f = .ok r) : q ≠ r := by
  obtain ⟨v, o, p, h1, h2, h3, h4, h5⟩ := scatSlot_inv he
  obtain ⟨v', o', p', g1, g2, g3, g4, g5⟩ := scatSlot_inv hf
  obtain ⟨u, d, d0, k1, k2, k3, k4, k5⟩ := hs.cap e p h3
  obtain ⟨u', d', d0', m1, m2, m3, m4, m5⟩ := hs.cap f p' g3
  rw [h1] at k1; injection k1 with k1; subst k1
  rw [g1] at m1; injection m1 with m1; subst m1
  have hv : v < label.length := (List.getElem?_eq_some_iff.mp k3).1
  have hv' : v' < label.length := (List.getElem?_eq_some_iff.mp m3).1
  rw [offsetsOf_getElem? _ (by omega)] at h2 g2
  injection h2 with h2
  injection g2 with g2
  have e1 := take_succ_sum label v d0 k3
  have e2 := take_succ_sum label v' d0' m3
  rcases Nat.lt_trichotomy v v' with hlt | heq | hgt
  · have e3 : (label.take (v + 1)).sum ≤ (label.take v').sum := take_sum_mono label hlt
    omega
  · subst heq
    have := hs.ne e f v p p' hef h1 g1 h3 g3
    omega
  · have e3 : (label.take (v' + 1)).sum ≤ (label.take v).sum := take_sum_mono label hgt
    omega

theorem no_race_scatter {x y label : List Nat} {w : List W} {wgt : Bool} {its : List (List Nat)} {m : Nat} {ep : List Nat} {ws : List W}
    (hp : its.flatten.Perm (List.range m)) :
    ¬ Race (scatStep x y w (offsetsOf label)) (footScat x (offsetsOf label)) (its.map (fun es => es.flatMap (scatIter wgt)))
      { degs := label, pos := fun _ => none, endpoints := ep, weights := ws } := by
  rintro ⟨pre, mid, post, t, u, a, b, s1, s2, p, q, hi, htu, hr1, hr2, hx, hy, hc⟩
  have hnd : its.flatten.Nodup := hp.nodup_iff.mpr List.nodup_range
  obtain ⟨la, hla, ha⟩ := tagged_mem (t := t) (a := a) hi (by simp)
  obtain ⟨lb, hlb, hb⟩ := tagged_mem (t := u) (a := b) hi (by simp)
  rw [List.getElem?_map] at hla hlb
  cases g1 : its[t]? with
  | none => rw [g1] at hla; cases hla
  | some l1 =>
  cases g2 : its[u]? with
  | none => rw [g2] at hlb; cases hlb
  | some l2 =>
  rw [g1] at hla; rw [g2] at hlb
  injection hla with hla; injection hlb with hlb
  subst hla; subst hlb
  obtain ⟨e, he, hae⟩ := List.mem_flatMap.mp ha
  obtain ⟨f, hf, hbf⟩ := List.mem_flatMap.mp hb
  have hef : e ≠ f := by
    rcases Nat.lt_or_gt_of_ne htu with h | h
    · exact getElem?_ne_of_nodup_flatten hnd h g1 g2 he hf
    · exact (getElem?_ne_of_nodup_flatten hnd h g2 g1 hf he).symm
  -- the schedule without thread numbers
  have hcaps : (caps ((pre ++ (t, a) :: (mid ++ (u, b) :: post)).map Prod.snd)).Nodup := by
    have h1 := (hi.perm.map Prod.snd)
    rw [tagged_flatten, flatten_iters] at h1
    have h2 := caps_perm h1
    rw [caps_iters] at h2
    exact h2.nodup_iff.mpr hnd
  rw [runActs_snd] at hr1 hr2
  have hI0 : ScatInv x label ({ degs := label, pos := fun _ => none, endpoints := ep, weights := ws } : Scatter W) :=
    ⟨fun v d h => ⟨d, h, Nat.le_refl _⟩, fun e p h => (nomatch h), fun e f v p q _ _ _ h _ => (nomatch h)⟩
  have hI2 : ScatInv x label s2 := runActs_inv scatInv_step _ _ _ hI0 hr2
  -- a slot taken at `s1` is still the slot of the edge at `s2`
  have hkeep : ∀ g r, scatSlot x (offsetsOf label) s1 g = .ok r → scatSlot x (offsetsOf label) s2 g = .ok r := by
    intro g r hg
    obtain ⟨v, o, p', -, -, h3, -, -⟩ := scatSlot_inv hg
    have hin : g ∈ caps (pre.map Prod.snd) := by
      by_cases h : g ∈ caps (pre.map Prod.snd)
      · exact h
      · have := scat_pos_keep _ _ _ h hr1
        rw [h3] at this; cases this
    rw [List.map_append] at hr2
    obtain ⟨s1', k1, k2⟩ := runActs_app hr2
    rw [hr1] at k1
    injection k1 with k1
    subst k1
    have hout : g ∉ caps (((t, a) :: mid).map Prod.snd) := by
      rw [List.map_append, caps_append, List.nodup_append] at hcaps
      intro h
      refine hcaps.2.2 g hin g ?_ rfl
      rw [show (t, a) :: (mid ++ (u, b) :: post) = ((t, a) :: mid) ++ ((u, b) :: post) from rfl, List.map_append, caps_append]
      exact List.mem_append_left _ h
    rw [scatSlot_pos (scat_pos_keep _ _ _ hout k2), hg]
  have hcases : ∀ c g, c ∈ scatIter wgt g → c = .cap g ∨ c = .wr g ∨ c = .ww g := by
    intro c g h
    unfold scatIter at h
    split at h <;> simp at h
    · exact h
    · rcases h with h | h
      · exact .inl h
      · exact .inr (.inl h)
  have harr := hc.1
  have hidx := hc.2.1
  have hat := hc.2.2.2
  rcases hcases a e hae with rfl | rfl | rfl <;> rcases hcases b f hbf with rfl | rfl | rfl <;>
    simp only [footScat] at hx hy
  all_goals
    rcases List.mem_cons.mp hx with rfl | hx <;> rcases List.mem_cons.mp hy with rfl | hy
  all_goals first
    | exact hef hidx
    | (split at hx <;> simp at hx
       split at hy <;> simp at hy
       subst hx; subst hy
       first
         | exact hat ⟨rfl, rfl⟩
         | (simp [writes, atomics] at harr; done)
         | (clear hx hy
            rename_i h1 _ _ h2
            exact scatSlot_ne hI2 hef (hkeep _ _ h1) h2 hidx))
    | (split at hx <;> simp at hx
       subst hx
       simp [writes, reads, atomics] at harr; done)
    | (split at hy <;> simp at hy
       subst hy
       simp [writes, reads, atomics] at harr; done)

/-! ## Degrees and offsets -/

theorem incAct_inv {ow e : Nat} {x degs degs' : List Nat} (h : incAct ow x e degs = .ok degs') :
    degs'.length = degs.length ∧ ∃ v, x[e]? = some v ∧ v < degs.length := by
  unfold incAct at h
  cases h1 : load x e with
  | error f => rw [h1] at h; cases h
  | ok v =>
    rw [h1] at h; simp only [ok_bind] at h
    cases h2 : load degs v with
    | error f => rw [h2] at h; cases h
    | ok d =>
      rw [h2] at h; simp only [ok_bind] at h
      split at h
      · obtain ⟨h3, rfl⟩ := store_inv h
        exact ⟨by simp, v, load_inv h1, h3⟩
      · cases h

theorem runInc_inv {ow : Nat} {x : List Nat} : ∀ (l degs degs' : List Nat), runActs (incAct ow x) l degs = .ok degs' →
    ∀ e ∈ l, ∃ v, x[e]? = some v ∧ v < degs.length := by
  intro l
  induction l with
  | nil => intro degs degs' _ e he; cases he
  | cons a l ih =>
    intro degs degs' h e he
    unfold runActs at h
    cases h1 : incAct ow x a degs with
    | error f => rw [h1] at h; cases h
    | ok d1 =>
      rw [h1] at h
      obtain ⟨hl, hv⟩ := incAct_inv h1
      rcases List.mem_cons.mp he with rfl | he
      · exact hv
      · have := ih d1 degs' h e he
        rwa [hl] at this

theorem runStore_len {γ : Type} : ∀ (l : List (Nat × γ)) (a a' : List γ), runActs storeAct l a = .ok a' →
    a'.length = a.length ∧ ∀ q ∈ l, q.1 < a.length := by
  intro l
  induction l with
  | nil => intro a a' h; cases h; exact ⟨rfl, fun q hq => by cases hq⟩
  | cons p l ih =>
    intro a a' h
    unfold runActs at h
    cases h1 : storeAct p a with
    | error f => rw [h1] at h; cases h
    | ok a1 =>
      rw [h1] at h
      obtain ⟨h2, h3⟩ := ih a1 a' h
      unfold storeAct at h1
      obtain ⟨h4, rfl⟩ := store_inv h1
      rw [List.length_set] at h2 h3
      refine ⟨h2, fun q hq => ?_⟩
      rcases List.mem_cons.mp hq with rfl | hq
      · exact h4
      · exact h3 q hq

/-- If counting the degrees succeeds, every entry's label is one of the vertices. -/
theorem countDegrees_inv {ow T n m : Nat} {x : List Nat} {r : List Nat × List Nat} (h : (countDegrees ow T n m x).Out (.ok r)) :
    ∀ e, e < m → ∃ v, x[e]? = some v ∧ v < n := by
  intro e he
  obtain ⟨_, ⟨jl, -, rfl⟩, _, ⟨js, -, rfl⟩, _, ⟨ja, -, rfl⟩, _, ⟨its0, h0, rfl⟩, _, ⟨sched0, hs0, rfl⟩, h⟩ := h
  cases h1 : runActs storeAct sched0 (alloc ja n) with
  | error f => rw [h1] at h; cases h
  | ok all =>
    rw [h1] at h
    obtain ⟨_, ⟨its1, h2, rfl⟩, _, ⟨sched1, hs1, rfl⟩, h⟩ := h
    cases h3 : runActs (incAct ow x) sched1 all with
    | error f => rw [h3] at h; cases h
    | ok all' =>
      have hlen : all.length = n := by rw [(runStore_len _ _ _ h1).1]; simp
      have := runInc_inv _ _ _ h3 e ((hs1.perm.trans h2.all).mem_iff.mpr (List.mem_range.mpr he))
      rwa [hlen] at this

theorem slice_len {γ : Type} (l : List γ) (n T tid : Nat) : vStart n T tid + (slice l n T tid).length ≤ max (vStart n T tid) (vStart n T (tid + 1)) := by
  unfold slice
  rw [List.length_take]
  omega

theorem countDegrees_drf (ow T n m : Nat) (x : List Nat) : (dCountDegrees ow T n m x).drf := by
  refine drf_any fun jl => drf_any fun js => drf_any fun ja => drf_choose fun its0 h0 => drf_bind ?_ fun all _ =>
    drf_choose fun its1 h1 => drf_bind ?_ fun all' _ => ?_
  · have := no_race_loop (step := storeAct) (foot := footStore "all_degs") (its := its0) (body := fun v => [(v, 0)])
      (s := alloc ja n) h0.all (by
        intro e f _ _ hne a ha b hb s1 s2 p hp q hq hc
        simp only [List.mem_singleton] at ha hb
        subst ha; subst hb
        simp only [footStore, List.mem_singleton] at hp hq
        subst hp; subst hq
        exact hne hc.2.1)
    simp only [← List.map_eq_flatMap] at this
    exact drf_par (acc_store _) this
  · refine drf_par (acc_inc _ _) (no_race_loop1 h1.all fun e f _ _ hne s1 s2 p hp q hq hc => ?_)
    unfold footInc at hp hq
    split at hp <;> simp at hp
    split at hq <;> simp at hq
    subst hp; subst hq
    exact hc.2.2.2 ⟨rfl, rfl⟩
  · refine drf_par (acc_store2 (by decide)) (no_race_static fun t u la lb htu hla hlb a ha b hb s1 s2 p hp q hq hc => ?_)
    rw [List.getElem?_map] at hla hlb
    cases g1 : (List.range T)[t]? with
    | none => rw [g1] at hla; cases hla
    | some t' =>
    cases g2 : (List.range T)[u]? with
    | none => rw [g2] at hlb; cases hlb
    | some u' =>
    obtain ⟨rfl, ht⟩ := range_get g1
    obtain ⟨rfl, hu⟩ := range_get g2
    rw [g1] at hla; rw [g2] at hlb
    injection hla with hla; injection hlb with hlb
    subst hla; subst hlb
    have harr := hc.1
    have hidx := hc.2.1
    simp only [List.mem_append, List.mem_map, List.mem_singleton] at ha hb
    have hb1 : ∀ (tid : Nat) (r : Nat × Nat), r ∈ blockActs (vStart n T tid) (slice all' n T tid) →
        vStart n T tid ≤ r.1 ∧ r.1 < vStart n T (tid + 1) := by
      intro tid r hr
      have h2 := block_within hr
      have h3 := slice_len all' n T tid
      have h4 := vStart_mono n T (Nat.le_succ tid)
      omega
    rcases ha with ⟨r, hr, rfl⟩ | rfl <;> rcases hb with ⟨k, hk, rfl⟩ | rfl <;>
      simp only [footStore2, List.mem_singleton] at hp hq <;> subst hp <;> subst hq <;> simp only [writes] at harr hidx
    · have h1 := hb1 _ _ hr
      have h2 := hb1 _ _ hk
      have h3 := vStart_mono n T (show t' + 1 ≤ u' from htu)
      omega
    · exact absurd harr (by decide)
    · exact absurd harr (by decide)
    · omega

theorem no_race_offsets {n m T : Nat} {degs starts s : List Nat} (arr : String) :
    ¬ Race storeAct (footStore arr) (offsetThreads n m T degs starts) s := by
  refine no_race_intervals (fun t => if t < T then vStart n T t else n) (fun t => if t < T then vStart n T (t + 1) else n + 1) ?_ ?_
  · intro t u htu hu
    unfold offsetThreads at hu
    simp only [List.length_append, List.length_map, List.length_range, List.length_cons, List.length_nil] at hu
    rw [if_pos (by omega)]
    split
    · exact vStart_mono n T htu
    · exact vStart_le n T (by omega) (by omega)
  · intro t l hl a ha s1 p hp
    simp only [footStore, List.mem_singleton] at hp
    subst hp
    unfold offsetThreads at hl
    by_cases ht : t < T
    · rw [List.getElem?_append_left (by simpa using ht), List.getElem?_map, List.getElem?_range ht] at hl
      injection hl with hl
      subst hl
      have h1 := block_within ha
      rw [if_pos ht, if_pos ht]
      have h2 : (runSums (startOf starts t) (slice degs n T t)).length = (slice degs n T t).length := by simp
      have h3 := slice_len degs n T t
      have h4 := vStart_mono n T (Nat.le_succ t)
      simp only [Within, writes]
      omega
    · rw [List.getElem?_append_right (by simpa using ht)] at hl
      have : t - ((List.range T).map (fun tid => blockActs (vStart n T tid) (runSums (startOf starts tid) (slice degs n T tid)))).length = 0 := by
        have := (List.getElem?_eq_some_iff.mp hl).1
        simpa using this
      rw [this] at hl
      simp only [List.getElem?_cons_zero, Option.some.injEq] at hl
      subst hl
      simp only [List.mem_singleton] at ha
      subst ha
      rw [if_neg ht, if_neg ht]
      simp [Within, writes]

/-- `convert_coo_` has no race, whatever COO it is given. -/
theorem convertCoo_drf {lw ow T : Nat} (hT : 0 < T) {wgt : Bool} {c : Coo W} (hm : c.m < 2 ^ ow) : (dConvertCoo lw ow T wgt c).drf := by
  refine drf_any fun j => drf_bind (countDegrees_drf ..) fun r hr => ?_
  rw [dCountDegrees_out] at hr
  have hlab := countDegrees_inv hr
  let xe : Nat → Nat := fun e => (c.x[e]?).getD 0
  have hxe : ∀ e, e < c.m → c.x[e]? = some (xe e) := by
    intro e he
    obtain ⟨v, hv, -⟩ := hlab e he
    simp [xe, hv]
  have hxn : ∀ e, e < c.m → xe e < c.n := by
    intro e he
    obtain ⟨v, hv, h⟩ := hlab e he
    simpa [xe, hv] using h
  obtain ⟨r', hr', hre⟩ := countDegrees_all hT hxe hxn hm _ hr
  injection hr' with hr'
  subst hr'
  subst hre
  generalize hall : degsOf xe (List.range c.m) c.n = all
  have halllen : all.length = c.n := by rw [← hall]; simp [degsOf]
  have hsum : all.sum = c.m := by
    rw [← hall, degs_sum _ _ _ (fun e he => hxn e (List.mem_range.mp he)), List.length_range]
  refine drf_bind (drf_par (acc_store _) (no_race_offsets _)) fun offs hoffs => ?_
  obtain ⟨sched, hs, ho⟩ := hoffs
  have hfit : plusOne lw c.n = c.n + 1 := by
    have h1 := (runStore_len _ _ _ ho.symm).2 (c.n, c.m) (hs.perm.mem_iff.mpr (by simp [offsetThreads]))
    simp only [alloc_length] at h1
    unfold plusOne at h1 ⊢
    split
    · rfl
    · rename_i hlw
      rw [if_neg hlw] at h1
      have := Nat.mod_le (c.n + 1) (2 ^ lw)
      omega
  rw [← hsum] at hs
  have hrun := run_offsets hT halllen hs (alloc j.offsets (plusOne lw c.n)) (by simp [hfit])
  have : offs = offsetsOf all := by
    have := ho.trans hrun
    injection this
  subst this
  exact drf_choose fun its hits => drf_bind (drf_par (acc_scat _ _ _ _) (no_race_scatter hits.all)) fun _ _ => drf_pure _

end Pigo
