import Verif.MoveClosure.Model

/-! # The use-after-move check and closures: properties (C186) -/

namespace Verif.MoveClosure
open Move (MS getM setM getM_setM)
open Spec

theorem use_some {m m' : MS} {x : String} (h : use m x = some m') : m' = m ∧ getM m x = false := by
  rw [use] at h
  by_cases hg : getM m x = true
  · rw [if_pos hg] at h; cases h
  · rw [if_neg hg] at h; cases h; exact ⟨rfl, by simpa using hg⟩

theorem use_ok {m : MS} {x : String} (h : getM m x = false) : use m x = some m := by simp [use, h]

/-! ## A call -/

/-- what holds within a call: own variables without a value are marked, captured ones have theirs -/
structure BInv (R caps L : List String) (e : Spec.Env) (m : MS) : Prop where
  loc : ∀ x, e.loc x = some false → getM m x = true
  known : ∀ x ∈ L, e.loc x ≠ none
  cap : ∀ x ∈ caps, e.loc x = none
  cell : ∀ x ∈ caps, e.cell x = some true ∨ (e.cell x = none ∧ x ∈ R)
  refs : ∀ x ∈ R, e.vars x = true

theorem get_ok {R caps L : List String} {e : Spec.Env} {m : MS} (i : BInv R caps L e m) {x : String}
    (hx : x ∈ caps ∨ x ∈ L) (hg : getM m x = false) : e.get x = true := by
  rcases hx with hx | hx
  · simp only [Spec.Env.get, i.cap x hx]
    rcases i.cell x hx with h | ⟨h, hr⟩
    · simp [h]
    · simp [h, i.refs x hr]
  · have hk := i.known x hx
    cases hl : e.loc x with
    | none => exact absurd hl hk
    | some b =>
        cases b with
        | true => simp [Spec.Env.get, hl]
        | false => rw [i.loc x hl] at hg; cases hg

theorem upd_same {A : Type} (f : String → A) (x : String) (v : A) : upd f x v x = v := by simp [upd]

theorem upd_ne {A : Type} (f : String → A) {x y : String} (v : A) (h : y ≠ x) : upd f x v y = f y := by simp [upd, h]

/-- an own variable gets or loses its value -/
theorem set_loc {R caps L : List String} {e : Spec.Env} {m : MS} (i : BInv R caps L e m) {x : String} (hx : x ∈ L) (b : Bool) :
    BInv R caps L (e.set x b) (setM m x !b) ∧ (e.set x b).vars = e.vars := by
  have hk := i.known x hx
  cases hl : e.loc x with
  | none => exact absurd hl hk
  | some b0 =>
      have es : e.set x b = { e with loc := upd e.loc x (some b) } := by simp [Spec.Env.set, hl]
      rw [es]
      refine ⟨⟨?_, ?_, ?_, i.cell, i.refs⟩, rfl⟩
      · intro y hy
        rw [getM_setM]
        by_cases hyx : y = x
        · rw [if_pos hyx]
          rw [hyx] at hy
          simp only [upd_same, Option.some.injEq] at hy
          simp [hy]
        · rw [if_neg hyx]
          simp only [upd_ne _ _ hyx] at hy
          exact i.loc y hy
      · intro y hy
        by_cases hyx : y = x
        · rw [hyx]; simp [upd_same]
        · simp only [upd_ne _ _ hyx]; exact i.known y hy
      · intro y hy
        have hyx : y ≠ x := fun h => by rw [h] at hy; rw [i.cap x hy] at hl; cases hl
        simp only [upd_ne _ _ hyx]
        exact i.cap y hy

/-- a captured variable gets a new value -/
theorem set_cap {R caps L : List String} {e : Spec.Env} {m : MS} (i : BInv R caps L e m) {x : String} (hx : x ∈ caps) :
    BInv R caps L (e.set x true) (setM m x false) ∧ ∀ y, y ∉ R → (e.set x true).vars y = e.vars y := by
  have hl := i.cap x hx
  have hloc : ∀ y, e.loc y = some false → getM (setM m x false) y = true := by
    intro y hy
    rw [getM_setM]
    have hyx : y ≠ x := fun h => by rw [h, hl] at hy; cases hy
    rw [if_neg hyx]
    exact i.loc y hy
  rcases i.cell x hx with hc | ⟨hc, hr⟩
  · have es : e.set x true = { e with cell := upd e.cell x (some true) } := by simp [Spec.Env.set, hl, hc]
    rw [es]
    refine ⟨⟨hloc, i.known, i.cap, ?_, i.refs⟩, fun _ _ => rfl⟩
    intro y hy
    by_cases hyx : y = x
    · left; rw [hyx]; simp [upd_same]
    · simp only [upd_ne _ _ hyx]; exact i.cell y hy
  · have es : e.set x true = { e with vars := upd e.vars x true } := by simp [Spec.Env.set, hl, hc]
    rw [es]
    refine ⟨⟨hloc, i.known, i.cap, i.cell, ?_⟩, ?_⟩
    · intro y hy
      by_cases hyx : y = x
      · rw [hyx]; simp [upd_same]
      · simp only [upd_ne _ _ hyx]; exact i.refs y hy
    · intro y hy
      have hyx : y ≠ x := fun h => hy (h ▸ hr)
      simp only [upd_ne _ _ hyx]

theorem body_runs (R caps : List String) : ∀ (bs : List B) (L : List String) (e : Spec.Env) (m m' : MS),
    Tame caps L bs → chkBody m bs = some m' → BInv R caps L e m →
    ∃ e', runBody e bs = some e' ∧ (∀ x ∈ caps, e'.cell x = some true ∨ (e'.cell x = none ∧ x ∈ R)) ∧
      (∀ x ∈ R, e'.vars x = true) ∧ ∀ x, x ∉ R → e'.vars x = e.vars x
  | [], _, e, _, _, _, _, i => ⟨e, rfl, i.cell, i.refs, fun _ _ => rfl⟩
  | .look x :: bs, L, e, m, m', ht, hc, i => by
      simp only [chkBody, chkB] at hc
      cases hu : use m x with
      | none => rw [hu] at hc; cases hc
      | some m1 =>
          rw [hu, Option.bind_some] at hc
          obtain ⟨rfl, hg⟩ := use_some hu
          simp only [runBody, runB, get_ok i ht.1 hg, if_true, Option.bind_some]
          exact body_runs R caps bs L e _ m' ht.2 hc i
  | .give x :: bs, L, e, m, m', ht, hc, i => by
      simp only [chkBody, chkB] at hc
      cases hu : use m x with
      | none => rw [hu] at hc; cases hc
      | some m1 =>
          rw [hu, Option.map_some, Option.bind_some] at hc
          obtain ⟨rfl, hg⟩ := use_some hu
          obtain ⟨i', hv⟩ := set_loc i ht.1 false
          simp only [runBody, runB, get_ok i (.inr ht.1) hg, if_true, Option.bind_some]
          have := body_runs R caps bs L _ _ m' ht.2 hc i'
          rwa [hv] at this
  | .decl x :: bs, L, e, m, m', ht, hc, i => by
      simp only [chkBody, chkB, Option.bind_some] at hc
      simp only [runBody, runB, Option.bind_some]
      refine body_runs R caps bs (x :: L) { e with loc := upd e.loc x (some true) } m m' ht.2 hc ⟨?_, ?_, ?_, i.cell, i.refs⟩
      · intro y hy
        by_cases hyx : y = x
        · rw [hyx] at hy; simp [upd_same] at hy
        · simp only [upd_ne _ _ hyx] at hy; exact i.loc y hy
      · intro y hy
        by_cases hyx : y = x
        · rw [hyx]; simp [upd_same]
        · simp only [upd_ne _ _ hyx]
          exact i.known y ((List.mem_cons.mp hy).resolve_left hyx)
      · intro y hy
        have hyx : y ≠ x := fun h => ht.1 (h ▸ hy)
        simp only [upd_ne _ _ hyx]
        exact i.cap y hy
  | .assign x :: bs, L, e, m, m', ht, hc, i => by
      simp only [chkBody, chkB, Option.bind_some] at hc
      simp only [runBody, runB, Option.bind_some]
      rcases ht.1 with hx | hx
      · obtain ⟨i', hv⟩ := set_cap i hx
        obtain ⟨e', h1, h2, h3, h4⟩ := body_runs R caps bs L _ _ m' ht.2 hc i'
        exact ⟨e', h1, h2, h3, fun y hy => (h4 y hy).trans (hv y hy)⟩
      · obtain ⟨i', hv⟩ := set_loc i hx true
        have := body_runs R caps bs L _ _ m' ht.2 hc i'
        rwa [hv] at this

/-! ## The function -/

/-- a closure that may be called any number of times -/
def CloOk (R : List String) (c : Clo) : Prop :=
  ∃ caps m, Tame caps [] c.body ∧ chkBody [] c.body = some m ∧
    ∀ x ∈ caps, c.cell x = some true ∨ (c.cell x = none ∧ x ∈ R)

structure Inv (R : List String) (s : St) (m : MS) : Prop where
  marked : ∀ x, s.vars x = false → getM m x = true
  refs : ∀ x ∈ R, getM m x = false
  clos : ∀ f c, s.clos f = some c → CloOk R c

theorem Inv.alive {R : List String} {s : St} {m : MS} (i : Inv R s m) {x : String} (h : getM m x = false) : s.vars x = true := by
  cases hv : s.vars x with
  | true => rfl
  | false => rw [i.marked x hv] at h; cases h

theorem marked_set {v : String → Bool} {m : MS} (h : ∀ x, v x = false → getM m x = true) (x : String) (b : Bool) :
    ∀ y, upd v x b y = false → getM (setM m x !b) y = true := by
  intro y hy
  rw [getM_setM]
  by_cases hyx : y = x
  · rw [if_pos hyx]; rw [hyx, upd_same] at hy; simp [hy]
  · rw [if_neg hyx]; rw [upd_ne _ _ hyx] at hy; exact h y hy

theorem capture_ok (R : List String) : ∀ (cs : List (String × Bool)) (v : String → Bool) (c : String → Option Bool) (m m' : MS),
    chkCaps m cs = some m' → (∀ x, v x = false → getM m x = true) → (∀ x ∈ R, getM m x = false) →
    (∀ x, (x, true) ∈ cs → x ∈ R) → (∀ x, (x, false) ∈ cs → x ∉ R) → (∀ x ∈ R, c x = none) →
    ∃ v' c', capture v c cs = some (v', c') ∧ (∀ x, v' x = false → getM m' x = true) ∧ (∀ x ∈ R, getM m' x = false) ∧
      (∀ x, c x = some true → c' x = some true) ∧ (∀ x ∈ R, c' x = none) ∧
      ∀ x ∈ cs.map (·.1), c' x = some true ∨ (c' x = none ∧ x ∈ R)
  | [], v, c, m, m', hc, h1, h2, _, _, hR => by
      cases hc
      exact ⟨v, c, rfl, h1, h2, fun _ h => h, hR, by simp⟩
  | (x, r) :: cs, v, c, m, m', hc, h1, h2, h3, h4, hR => by
      simp only [chkCaps] at hc
      cases hu : use m x with
      | none => rw [hu] at hc; cases hc
      | some m1 =>
          rw [hu, Option.bind_some] at hc
          obtain ⟨rfl, hg⟩ := use_some hu
          have hv : v x = true := by
            cases hv : v x with
            | true => rfl
            | false => rw [h1 x hv] at hg; cases hg
          cases r with
          | true =>
              simp only [if_true] at hc
              obtain ⟨v', c', e, a1, a2, a3, a4, a5⟩ := capture_ok R cs v c _ m' hc h1 h2
                (fun y hy => h3 y (by simp [hy])) (fun y hy => h4 y (by simp [hy])) hR
              refine ⟨v', c', by simp [capture, hv, e], a1, a2, a3, a4, ?_⟩
              intro y hy
              rcases List.mem_cons.mp hy with rfl | hy
              · exact .inr ⟨a4 _ (h3 _ (by simp)), h3 _ (by simp)⟩
              · exact a5 y hy
          | false =>
              simp only [Bool.false_eq_true, if_false] at hc
              have hx : x ∉ R := h4 x (by simp)
              obtain ⟨v', c', e, a1, a2, a3, a4, a5⟩ := capture_ok R cs (upd v x false) (upd c x (some true)) _ m' hc
                (marked_set h1 x false)
                (fun y hy => by
                  rw [getM_setM, if_neg (fun h : y = x => hx (h ▸ hy))]; exact h2 y hy)
                (fun y hy => h3 y (by simp [hy])) (fun y hy => h4 y (by simp [hy]))
                (fun y hy => by rw [upd_ne _ _ (fun h : y = x => hx (h ▸ hy))]; exact hR y hy)
              refine ⟨v', c', by simp [capture, hv, e], a1, a2, ?_, a4, ?_⟩
              · intro y hy
                refine a3 y ?_
                by_cases hyx : y = x
                · rw [hyx, upd_same]
                · rw [upd_ne _ _ hyx]; exact hy
              · intro y hy
                rcases List.mem_cons.mp hy with h | hy
                · left; rw [h]; exact a3 x (upd_same _ _ _)
                · exact a5 y hy

theorem op_runs (R : List String) (o : Op) (s : St) (m m' : MS) (ho : OpOk R o) (hc : chkOp m o = some m')
    (i : Inv R s m) : ∃ s', runOp s o = some s' ∧ Inv R s' m' := by
  cases o with
  | base b =>
      cases b with
      | look x =>
          obtain ⟨rfl, hg⟩ := use_some (show use m x = some m' from hc)
          exact ⟨s, by simp [runOp, i.alive hg], i⟩
      | give x =>
          simp only [chkOp, chkB] at hc
          cases hu : use m x with
          | none => rw [hu] at hc; cases hc
          | some m1 =>
              rw [hu, Option.map_some, Option.some.injEq] at hc
              obtain ⟨rfl, hg⟩ := use_some hu
              subst hc
              refine ⟨{ s with vars := upd s.vars x false }, by simp only [runOp, i.alive hg, if_true], marked_set i.marked x false, ?_, i.clos⟩
              intro y hy
              rw [getM_setM, if_neg (fun h : y = x => ho (h ▸ hy))]
              exact i.refs y hy
      | decl x =>
          cases hc
          refine ⟨_, rfl, ?_, i.refs, i.clos⟩
          intro y hy
          by_cases hyx : y = x
          · rw [hyx] at hy; simp [upd_same] at hy
          · simp only [upd_ne _ _ hyx] at hy; exact i.marked y hy
      | assign x =>
          cases hc
          refine ⟨_, rfl, marked_set i.marked x true, ?_, i.clos⟩
          intro y hy
          rw [getM_setM]
          split
          · rfl
          · exact i.refs y hy
  | lam f caps body =>
      simp only [chkOp] at hc
      cases h1 : chkCaps m caps with
      | none => rw [h1] at hc; cases hc
      | some m1 =>
          rw [h1, Option.bind_some] at hc
          cases h2 : chkBody [] body with
          | none => rw [h2] at hc; cases hc
          | some mb =>
              rw [h2, Option.map_some, Option.some.injEq] at hc
              subst hc
              obtain ⟨t1, t2, t3⟩ := ho
              obtain ⟨v', c', e, a1, a2, _, _, a5⟩ := capture_ok R caps s.vars (fun _ => none) m m1 h1 i.marked i.refs
                t2 t3 (fun _ _ => rfl)
              refine ⟨⟨v', upd s.clos f (some ⟨c', body⟩)⟩, by simp [runOp, e], a1, a2, ?_⟩
              intro g c hg
              by_cases hgf : g = f
              · rw [hgf] at hg
                simp only [upd_same, Option.some.injEq] at hg
                subst hg
                exact ⟨_, mb, t1, h2, a5⟩
              · simp only [upd_ne _ _ hgf] at hg
                exact i.clos g c hg
  | call f =>
      cases hc
      cases hf : s.clos f with
      | none => exact ⟨s, by simp [runOp, hf], i⟩
      | some c =>
          obtain ⟨caps, mb, t1, t2, t3⟩ := i.clos f c hf
          obtain ⟨e', h1, h2, h3, h4⟩ := body_runs R caps c.body [] ⟨fun _ => none, c.cell, s.vars⟩ [] mb t1 t2
            ⟨by simp, by simp, by simp, t3, fun x hx => i.alive (i.refs x hx)⟩
          refine ⟨⟨e'.vars, upd s.clos f (some ⟨e'.cell, c.body⟩)⟩, by simp [runOp, hf, h1], ?_, i.refs, ?_⟩
          · intro x hx
            by_cases hr : x ∈ R
            · have := h3 x hr; simp only at hx; rw [this] at hx; cases hx
            · simp only [h4 x hr] at hx; exact i.marked x hx
          · intro g d hg
            by_cases hgf : g = f
            · rw [hgf] at hg
              simp only [upd_same, Option.some.injEq] at hg
              subst hg
              exact ⟨caps, mb, t1, t2, h2⟩
            · simp only [upd_ne _ _ hgf] at hg
              exact i.clos g d hg

theorem runs (R : List String) : ∀ (os : List Op) (s : St) (m m' : MS), (∀ o ∈ os, OpOk R o) → chk m os = some m' →
    Inv R s m → ∃ s', run s os = some s'
  | [], s, _, _, _, _, _ => ⟨s, rfl⟩
  | o :: os, s, m, m', ho, hc, i => by
      simp only [chk] at hc
      cases h1 : chkOp m o with
      | none => rw [h1] at hc; cases hc
      | some m1 =>
          rw [h1, Option.bind_some] at hc
          obtain ⟨s1, e, i1⟩ := op_runs R o s m m1 (ho o (by simp)) h1 i
          obtain ⟨s2, e2⟩ := runs R os s1 m1 m' (fun p hp => ho p (by simp [hp])) hc i1
          exact ⟨s2, by simp [run, e, e2]⟩

theorem start_inv (R : List String) : Inv R start [] :=
  ⟨by simp [start], fun _ _ => rfl, by simp [start]⟩

/-- C186 (partial): in a function that the check accepts no value is used after it was given away, with
any closures made and called any number of times, if closures give away only their own variables and what
is captured by reference is given away nowhere.  Missing: `call_twice_violated`, `ref_give_violated`,
`ref_later_violated`. -/
theorem closures_sound_partial (R : List String) (os : List Op) (ho : ∀ o ∈ os, OpOk R o)
    (hc : (chk [] os).isSome) : (run start os).isSome := by
  obtain ⟨m, hm⟩ := Option.isSome_iff_exists.mp hc
  obtain ⟨s, hs⟩ := runs R os start [] m ho hm (start_inv R)
  simp [hs]

/-! ## No false alarms -/

/-- marks are for variables without a value, whose names were seen -/
def True' (seen : List String) (s : St) (m : MS) : Prop := ∀ x, getM m x = true → s.vars x = false ∧ x ∈ seen

theorem capture_alarm (seen : List String) : ∀ (cs : List (String × Bool)) (v : String → Bool) (c : String → Option Bool) (m : MS)
    (p : (String → Bool) × (String → Option Bool)), capture v c cs = some p →
    (∀ x, getM m x = true → v x = false ∧ x ∈ seen) →
    ∃ m', chkCaps m cs = some m' ∧ ∀ x, getM m' x = true → p.1 x = false ∧ (x ∈ cs.map (·.1) ∨ x ∈ seen)
  | [], v, c, m, p, h, hm => by
      cases h
      exact ⟨m, rfl, fun x hx => ⟨(hm x hx).1, .inr (hm x hx).2⟩⟩
  | (x, r) :: cs, v, c, m, p, h, hm => by
      simp only [capture] at h
      by_cases hv : v x = true
      · rw [if_pos hv] at h
        have hg : getM m x = false := by
          cases hg : getM m x with
          | false => rfl
          | true => rw [(hm x hg).1] at hv; cases hv
        cases r with
        | true =>
            simp only [if_true] at h
            obtain ⟨m', e, a⟩ := capture_alarm seen cs v c m p h hm
            refine ⟨m', by simp [chkCaps, use_ok hg, e], fun y hy => ⟨(a y hy).1, ?_⟩⟩
            rcases (a y hy).2 with h' | h'
            · exact .inl (List.mem_cons_of_mem _ h')
            · exact .inr h'
        | false =>
            simp only [Bool.false_eq_true, if_false] at h
            obtain ⟨m', e, a⟩ := capture_alarm (x :: seen) cs (upd v x false) (upd c x (some true)) (setM m x true) p h (by
              intro y hy
              rw [getM_setM] at hy
              by_cases hyx : y = x
              · rw [hyx]; exact ⟨upd_same _ _ _, by simp⟩
              · rw [if_neg hyx] at hy
                rw [upd_ne _ _ hyx]
                exact ⟨(hm y hy).1, List.mem_cons_of_mem _ (hm y hy).2⟩)
            refine ⟨m', by simp [chkCaps, use_ok hg, e], fun y hy => ⟨(a y hy).1, ?_⟩⟩
            rcases (a y hy).2 with h' | h'
            · exact .inl (List.mem_cons_of_mem _ h')
            · rcases List.mem_cons.mp h' with rfl | h'
              · exact .inl (by simp)
              · exact .inr h'
      · rw [if_neg hv] at h; cases h

theorem alarms (R : List String) : ∀ (os : List Op) (seen : List String) (s s' : St) (m : MS), (∀ o ∈ os, OpOk R o) →
    (∀ f caps body, Op.lam f caps body ∈ os → (chkBody [] body).isSome) → Fresh seen os →
    run s os = some s' → Inv R s m → True' seen s m → (chk m os).isSome
  | [], _, _, _, _, _, _, _, _, _, _ => rfl
  | o :: os, seen, s, s', m, ho, hb, hf, hr, i, t => by
      simp only [run] at hr
      cases h1 : runOp s o with
      | none => rw [h1] at hr; cases hr
      | some s1 =>
          rw [h1, Option.bind_some] at hr
          have key : ∃ m1 seen1, chkOp m o = some m1 ∧ Fresh seen1 os ∧ True' seen1 s1 m1 := by
            have ok : ∀ x, s.vars x = true → getM m x = false := by
              intro x hx
              cases hg : getM m x with
              | false => rfl
              | true => rw [(t x hg).1] at hx; cases hx
            cases o with
            | base b =>
                cases b with
                | look x =>
                    simp only [runOp] at h1
                    by_cases hv : s.vars x = true
                    · rw [if_pos hv] at h1; cases h1
                      exact ⟨m, seen, use_ok (ok x hv), hf, t⟩
                    · rw [if_neg hv] at h1; cases h1
                | give x =>
                    simp only [runOp] at h1
                    by_cases hv : s.vars x = true
                    · rw [if_pos hv] at h1; cases h1
                      refine ⟨setM m x true, x :: seen, by simp [chkOp, chkB, use_ok (ok x hv)], hf, ?_⟩
                      intro y hy
                      rw [getM_setM] at hy
                      by_cases hyx : y = x
                      · rw [hyx]; exact ⟨upd_same _ _ _, by simp⟩
                      · rw [if_neg hyx] at hy
                        exact ⟨by simp only [upd_ne _ _ hyx]; exact (t y hy).1, List.mem_cons_of_mem _ (t y hy).2⟩
                    · rw [if_neg hv] at h1; cases h1
                | decl x =>
                    cases h1
                    refine ⟨m, x :: seen, rfl, hf.2, ?_⟩
                    intro y hy
                    have hyx : y ≠ x := fun h => hf.1 (h ▸ (t y hy).2)
                    exact ⟨by simp only [upd_ne _ _ hyx]; exact (t y hy).1, List.mem_cons_of_mem _ (t y hy).2⟩
                | assign x =>
                    cases h1
                    refine ⟨setM m x false, x :: seen, rfl, hf, ?_⟩
                    intro y hy
                    rw [getM_setM] at hy
                    by_cases hyx : y = x
                    · rw [if_pos hyx] at hy; cases hy
                    · rw [if_neg hyx] at hy
                      exact ⟨by simp only [upd_ne _ _ hyx]; exact (t y hy).1, List.mem_cons_of_mem _ (t y hy).2⟩
            | lam f caps body =>
                simp only [runOp] at h1
                cases hcap : capture s.vars (fun _ => none) caps with
                | none => rw [hcap] at h1; cases h1
                | some p =>
                    rw [hcap, Option.map_some, Option.some.injEq] at h1
                    subst h1
                    obtain ⟨m1, e, a⟩ := capture_alarm seen caps s.vars _ m p hcap t
                    obtain ⟨mb, hmb⟩ := Option.isSome_iff_exists.mp (hb f caps body (by simp))
                    refine ⟨m1, caps.map (·.1) ++ seen, by simp [chkOp, e, hmb], hf, ?_⟩
                    intro y hy
                    exact ⟨(a y hy).1, List.mem_append.mpr (a y hy).2⟩
            | call f =>
                refine ⟨m, seen, rfl, hf, ?_⟩
                intro y hy
                refine ⟨?_, (t y hy).2⟩
                have hyR : y ∉ R := fun h => by rw [i.refs y h] at hy; cases hy
                cases hcl : s.clos f with
                | none =>
                    simp only [runOp, hcl, Option.some.injEq] at h1
                    rw [← h1]; exact (t y hy).1
                | some c =>
                    obtain ⟨caps, mb, t1, t2, t3⟩ := i.clos f c hcl
                    obtain ⟨e', g1, g2, g3, g4⟩ := body_runs R caps c.body [] ⟨fun _ => none, c.cell, s.vars⟩ [] mb t1 t2
                      ⟨by simp, by simp, by simp, t3, fun x hx => i.alive (i.refs x hx)⟩
                    simp only [runOp, hcl, g1, Option.map_some, Option.some.injEq] at h1
                    rw [← h1]
                    exact (g4 y hyR).trans (t y hy).1
          obtain ⟨m1, seen1, e, hf1, t1⟩ := key
          obtain ⟨s2, e2, i2⟩ := op_runs R o s m m1 (ho o (by simp)) e i
          have : s2 = s1 := by rw [e2] at h1; exact Option.some.inj h1
          subst this
          have := alarms R os seen1 s2 s' m1 (fun p hp => ho p (by simp [hp]))
            (fun f caps body h => hb f caps body (by simp [h])) hf1 hr i2 t1
          simpa [chk, e] using this

/-- C186: such a function is rejected only if a value is used after it was given away, in the function
when it runs or in the body of a closure. -/
theorem no_false_alarm (R : List String) (os : List Op) (ho : ∀ o ∈ os, OpOk R o) (hf : Fresh [] os)
    (hb : ∀ f caps body, Op.lam f caps body ∈ os → (chkBody [] body).isSome) (hr : (run start os).isSome) :
    (chk [] os).isSome := by
  obtain ⟨s', hs⟩ := Option.isSome_iff_exists.mp hr
  exact alarms R os [] start s' [] ho hb hf hs (start_inv R) (fun x hx => by cases hx)

/-! ## Where it does not hold -/

/-- C186 refuted: a closure that gives away what it captured by value may be called twice. -/
theorem call_twice_violated (x f : String) :
    (chk [] [.base (.decl x), .lam f [(x, false)] [.give x], .call f, .call f]).isSome ∧
    (run start [.base (.decl x), .lam f [(x, false)] [.give x], .call f, .call f]) = none := by
  constructor
  · simp [chk, chkOp, chkB, chkBody, chkCaps, use, getM]
  · simp [run, runOp, runBody, runB, start, capture, upd, Spec.Env.get, Spec.Env.set]

/-- C186 refuted: after a closure has given away what it captured by reference, the variable may be used. -/
theorem ref_give_violated (x f : String) :
    (chk [] [.base (.decl x), .lam f [(x, true)] [.give x], .call f, .base (.look x)]).isSome ∧
    (run start [.base (.decl x), .lam f [(x, true)] [.give x], .call f, .base (.look x)]) = none := by
  constructor
  · simp [chk, chkOp, chkB, chkBody, chkCaps, use, getM]
  · simp [run, runOp, runBody, runB, start, capture, upd, Spec.Env.get, Spec.Env.set]

/-- C186 refuted: a variable captured by reference may be given away and the closure called after that. -/
theorem ref_later_violated (x f : String) :
    (chk [] [.base (.decl x), .lam f [(x, true)] [.look x], .base (.give x), .call f]).isSome ∧
    (run start [.base (.decl x), .lam f [(x, true)] [.look x], .base (.give x), .call f]) = none := by
  constructor
  · simp [chk, chkOp, chkB, chkBody, chkCaps, use, getM]
  · simp [run, runOp, runBody, runB, start, capture, upd, Spec.Env.get]

/-- a program with both kinds of captures, an own variable given away, and two calls; and one rejected,
because a variable is used that a closure took -/
def sample : List Op :=
  [.base (.decl "a"), .base (.decl "b"), .lam "f" [("a", false), ("b", true)] [.look "a", .look "b", .decl "t", .give "t"],
    .call "f", .base (.look "b"), .call "f"]

theorem sample_ok : ∀ o ∈ sample, OpOk ["b"] o := by
  intro o ho
  simp only [sample, List.mem_cons, List.not_mem_nil, or_false] at ho
  rcases ho with rfl | rfl | rfl | rfl | rfl | rfl <;> simp [OpOk, Tame]

example : (run start sample).isSome := closures_sound_partial ["b"] sample sample_ok (by decide +kernel)

example : (chk [] sample).isSome :=
  no_false_alarm ["b"] sample sample_ok (by simp [Fresh, sample]) (by
    intro f caps body h
    simp only [sample, List.mem_cons, List.not_mem_nil, or_false, reduceCtorEq, false_or, Op.lam.injEq] at h
    rw [h.2.2]
    decide +kernel) (closures_sound_partial ["b"] sample sample_ok (by decide +kernel))

example : chk [] [.base (.decl "a"), .lam "f" [("a", false)] [.look "a"], .base (.look "a")] = none := by decide +kernel

end Verif.MoveClosure
