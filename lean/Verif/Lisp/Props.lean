import Verif.Lisp.Reader

/-!
# What the Lisp plugin writes computes what the Lisp says

`block_meaning` (C130): for every text of a block, what the plugin writes is C that prints what the block
prints.  The violations are in C131 and C132.
-/

namespace Verif.Lisp

open Forth (Str Out isspace)
open Spec

/-! ## Lookups -/

theorem names_no_prim {f : Str} (h : Name f) : prims.lookup f = none := by
  have hp : ∀ p ∈ prims, p.1.take 2 = "l_".toList := by decide
  have : ∀ (l : List (Str × Prim)), (∀ p ∈ l, p.1 ≠ f) → l.lookup f = none := by
    intro l hl
    induction l with
    | nil => rfl
    | cons p l ih =>
      obtain ⟨k, v⟩ := p
      have h1 : k ≠ f := hl (k, v) (by simp)
      have : (f == k) = false := by simp [Ne.symm h1]
      rw [List.lookup_cons, this]
      exact ih (fun p hp => hl p (by simp [hp]))
  apply this
  intro p hm e
  exact h.2.2 (e ▸ hp p hm)

theorem name_not_nil {x : Str} (h : Name x) : x ≠ "nil".toList := by
  intro e
  exact h.2.1 (by rw [e]; decide)

theorem const_dec {s : Str} {n : Nat} (h : Forth.Spec.Dec s n) :
    Forth.magnitude s = some n ∧ ∃ c r, s = c :: r ∧ c ≠ '-' := by
  obtain ⟨v, r, e, hv, h0⟩ := Forth.dec_head h
  have hd := Forth.dec_digits h
  obtain ⟨-, -, -, c2, c3⟩ := Forth.digit_char v hv
  refine ⟨?_, _, r, e, ?_⟩
  · by_cases hz : v = 0
    · obtain ⟨rfl, rfl⟩ := h0 hz
      subst hz
      rw [e]
      rfl
    · rw [e, Forth.magnitude_other (fun hh => hz (Forth.digit_zero v hv hh)), ← e]
      rw [e] at hd ⊢
      exact hd
  · first | exact c2 | exact c3

theorem const_numeral {s : Str} {n : Int} (h : Numeral s n) : cConst s = some n := by
  cases h with
  | pos hd hr =>
    obtain ⟨hm, c, r, rfl, hc⟩ := const_dec hd
    unfold cConst
    simp only
    split
    · rename_i he; injection he with he _; exact absurd he hc
    · rw [hm]; simp [hr]
  | neg hd hr =>
    rename_i s n
    obtain ⟨hm, -⟩ := const_dec hd
    have hr' : Range (-(n : Int)) := by unfold Range at hr ⊢; omega
    unfold cConst
    simp only
    rw [hm]
    simp [hr']

/-! ## Variables -/

/-- Environments that agree on `xs`. -/
def Agree (xs : List Str) (ρ σ : Env) : Prop := ∀ x ∈ xs, ρ x = σ x

theorem agree_bind {ys : List Str} (xs : List Str) (vs : List Val) {ρ σ : Env} (h : Agree ys ρ σ) :
    (bind xs vs ρ = none ∧ bind xs vs σ = none) ∨
      ∃ ρ' σ', bind xs vs ρ = some ρ' ∧ bind xs vs σ = some σ' ∧ Agree ys ρ' σ' := by
  induction xs generalizing vs ρ σ with
  | nil =>
    cases vs with
    | nil => exact .inr ⟨ρ, σ, rfl, rfl, h⟩
    | cons v vs => exact .inl ⟨rfl, rfl⟩
  | cons x xs ih =>
    cases vs with
    | nil => exact .inl ⟨rfl, rfl⟩
    | cons v vs =>
      refine ih vs (ρ := ρ.set x (some v)) (σ := σ.set x (some v)) ?_
      intro y hy
      unfold Env.set
      split
      · rfl
      · exact h y hy

theorem mem_symsL {x : Str} {e : Sx} {es : List Sx} (h : e ∈ es) (hx : x ∈ e.syms) : x ∈ symsL es := by
  induction es with
  | nil => simp at h
  | cons a es ih =>
    rw [symsL, List.mem_append]
    rcases List.mem_cons.mp h with rfl | h
    · exact .inl hx
    · exact .inr (ih h)

theorem vals_congr {α : Type} {g h : α → Option Val} {es : List α} (hg : ∀ e ∈ es, g e = h e) :
    vals g es = vals h es := by
  induction es with
  | nil => rfl
  | cons e es ih =>
    rw [vals, vals, hg e (by simp), ih (fun e he => hg e (by simp [he]))]

theorem last_congr {α : Type} {g h : α → Option Val} {es : List α} (hg : ∀ e ∈ es, g e = h e) :
    last g es = last h es := by
  induction es with
  | nil => rfl
  | cons e es ih =>
    cases es with
    | nil => exact hg e (by simp)
    | cons e' es => rw [last, last, hg e (by simp), ih (fun e he => hg e (by simp only [List.mem_cons] at he ⊢; exact .inr he))]

/-- The value of an expression depends on its symbols only. -/
theorem ev_agree (D : List (Fn Sx)) (n : Nat) (e : Sx) (ρ σ : Env) (h : Agree e.syms ρ σ) :
    ev D n ρ e = ev D n σ e := by
  induction n generalizing e ρ σ with
  | zero => rfl
  | succ n ih =>
    cases e with
    | num s v => rfl
    | nil => rfl
    | sym x => exact h x (by simp [Sx.syms])
    | bin o a b =>
      rw [ev, ev, ih a ρ σ (fun x hx => h x (by simp [Sx.syms, hx])),
        ih b ρ σ (fun x hx => h x (by simp [Sx.syms, hx]))]
    | un o a => rw [ev, ev, ih a ρ σ (fun x hx => h x (by simp [Sx.syms, hx]))]
    | ite c a b =>
      rw [ev, ev, ih a ρ σ (fun x hx => h x (by simp [Sx.syms, hx])),
        ih b ρ σ (fun x hx => h x (by simp [Sx.syms, hx])),
        ih c ρ σ (fun x hx => h x (by simp [Sx.syms, hx]))]
    | whn c a =>
      rw [ev, ev, ih a ρ σ (fun x hx => h x (by simp [Sx.syms, hx])),
        ih c ρ σ (fun x hx => h x (by simp [Sx.syms, hx]))]
    | letb xs es b =>
      have h1 : vals (ev D n ρ) es = vals (ev D n σ) es :=
        vals_congr (fun e he => ih e ρ σ (fun x hx => h x (by
          rw [Sx.syms, List.mem_append]; exact .inl (mem_symsL he hx))))
      rw [ev, ev, h1]
      cases vals (ev D n σ) es with
      | none => rfl
      | some vs =>
        have hb : Agree (symsL b) ρ σ := fun x hx => h x (by
          rw [Sx.syms, List.mem_append]; exact .inr hx)
        rcases agree_bind xs vs hb with ⟨e1, e2⟩ | ⟨ρ', σ', e1, e2, h2⟩
        · simp only [Option.bind_eq_bind, Option.bind_some, e1, e2]
        · simp only [Option.bind_eq_bind, Option.bind_some, e1, e2]
          exact last_congr (fun e he => ih e ρ' σ' (fun x hx => h2 x (mem_symsL he hx)))
    | call f as =>
      have h1 : vals (ev D n ρ) as = vals (ev D n σ) as :=
        vals_congr (fun e he => ih e ρ σ (fun x hx => h x (by rw [Sx.syms]; exact mem_symsL he hx)))
      rw [ev, ev, h1]

/-! ## Functions -/

/-- The C for a function. -/
def fnC (d : Fn Sx) : Fn CE := ⟨d.name, d.params, cs d.body⟩

/-- Functions that are good, the latest first. -/
inductive GoodDefs : List (Fn Sx) → Prop
  | nil : GoodDefs []
  | cons {d D} : d.name ∉ D.map Fn.name → (∀ x ∈ d.params, x ∉ (d :: D).map Fn.name) →
      (∀ e ∈ d.body, Good ((d :: D).map Fn.name) e) → GoodDefs D → GoodDefs (d :: D)

theorem lookup {D' : List (Fn Sx)} {f : Str} (hf : f ∈ D'.map Fn.name) {D0 : List (Fn Sx)}
    (h : GoodDefs (D0 ++ D')) : ∃ D1 d D2, D' = D1 ++ d :: D2 ∧ (D0 ++ D').find? (·.name = f) = some d ∧
      visible f (D'.map fnC) = some (fnC d, (d :: D2).map fnC) ∧ d.name = f ∧ GoodDefs (d :: D2) := by
  induction D0 with
  | cons a D0 ih =>
    cases h with
    | cons h1 h2 h3 h4 =>
      obtain ⟨D1, d, D2, e1, e2, e3, e4, e5⟩ := ih h4
      refine ⟨D1, d, D2, e1, ?_, e3, e4, e5⟩
      have : ¬ a.name = f := by
        intro e
        apply h1
        rw [e]
        exact List.mem_map.mpr (by
          obtain ⟨b, hb, hb'⟩ := List.mem_map.mp hf
          exact ⟨b, List.mem_append_right _ hb, hb'⟩)
      rw [List.cons_append, List.find?_cons, decide_eq_false this]
      exact e2
  | nil =>
    rw [List.nil_append] at h ⊢
    induction D' with
    | nil => simp at hf
    | cons a D' ih =>
      by_cases ha : a.name = f
      · refine ⟨[], a, D', rfl, ?_, ?_, ha, h⟩
        · simp [List.find?_cons, ha]
        · rw [List.map_cons, visible, if_pos (show (fnC a).name = f from ha)]
      · cases h with
        | cons h1 h2 h3 h4 =>
          have hf' : f ∈ D'.map Fn.name := by
            rcases List.mem_cons.mp hf with e | e
            · exact absurd e.symm ha
            · exact e
          obtain ⟨D1, d, D2, e1, e2, e3, e4, e5⟩ := ih hf' h4
          refine ⟨a :: D1, d, D2, by rw [e1]; rfl, ?_, ?_, e4, e5⟩
          · simp only [List.find?_cons, ha, decide_false]
            exact e2
          · rw [List.map_cons, visible, if_neg (show ¬ (fnC a).name = f from ha)]
            exact e3

/-! ## Operators -/

theorem bin_prim (o : Bin) : ∃ p, prims.lookup o.fn = some p ∧ ∀ u v w, o.app u v = some w → p.app [u, v] = some w := by
  cases o
  · refine ⟨.add, by decide, ?_⟩
    intro u v w h
    cases u <;> cases v <;> first | exact h | cases h
  · refine ⟨.sub, by decide, ?_⟩
    intro u v w h
    cases u <;> cases v <;> first | exact h | cases h
  · refine ⟨.mul, by decide, ?_⟩
    intro u v w h
    cases u <;> cases v <;> first | exact h | cases h
  · refine ⟨.div, by decide, ?_⟩
    intro u v w h
    cases u <;> cases v <;> try cases h
    rename_i a b
    simp only [Bin.app] at h
    simp only [Prim.app, Val.toNum]
    split at h
    · cases h
    · rename_i hb; exact (if_neg hb).trans h
  · refine ⟨.lt, by decide, ?_⟩
    intro u v w h
    cases u <;> cases v <;> first | exact h | cases h
  · refine ⟨.cons, by decide, ?_⟩
    intro u v w h
    exact h

theorem un_prim (o : Un) : ∃ p, prims.lookup o.fn = some p ∧ ∀ u w, o.app u = some w → p.app [u] = some w := by
  cases o
  · refine ⟨.car, by decide, ?_⟩
    intro u w h
    cases u <;> first | exact h | cases h
  · refine ⟨.cdr, by decide, ?_⟩
    intro u w h
    cases u <;> first | exact h | cases h

/-! ## Expressions -/

theorem bind_free {fs : List Str} {xs : List Str} (hx : ∀ x ∈ xs, x ∉ fs) {vs : List Val} {ρ ρ' : Env}
    (h : bind xs vs ρ = some ρ') (hρ : ∀ f ∈ fs, ρ f = none) : ∀ f ∈ fs, ρ' f = none := by
  induction xs generalizing vs ρ with
  | nil =>
    cases vs with
    | nil => cases h; exact hρ
    | cons v vs => cases h
  | cons x xs ih =>
    cases vs with
    | nil => cases h
    | cons v vs =>
      refine ih (fun y hy => hx y (by simp [hy])) (ρ := ρ.set x (some v)) h ?_
      intro f hf
      unfold Env.set
      rw [if_neg]
      · exact hρ f hf
      · rintro rfl; exact hx f (by simp) hf

theorem vals_c {g : Sx → Option Val} {g' : CE → Option Val} {es : List Sx} {vs : List Val}
    (h : vals g es = some vs) (hg : ∀ e ∈ es, ∀ v, g e = some v → g' e.c = some v) : vals g' (cs es) = some vs := by
  induction es generalizing vs with
  | nil => cases h; rfl
  | cons e es ih =>
    rw [vals] at h
    simp only [Option.bind_eq_bind] at h
    obtain ⟨v, h1, h⟩ := Option.bind_eq_some_iff.mp h
    obtain ⟨vs', h2, h⟩ := Option.bind_eq_some_iff.mp h
    cases h
    rw [cs, vals, hg e (by simp) v h1, ih h2 (fun e he => hg e (by simp [he]))]
    rfl

theorem last_c {g : Sx → Option Val} {g' : CE → Option Val} {es : List Sx} {v : Val}
    (h : last g es = some v) (hg : ∀ e ∈ es, ∀ v, g e = some v → g' e.c = some v) : last g' (cs es) = some v := by
  induction es generalizing v with
  | nil => cases h
  | cons e es ih =>
    cases es with
    | nil => exact hg e (by simp) v h
    | cons e' es =>
      rw [last] at h
      simp only [Option.bind_eq_bind] at h
      obtain ⟨u, h1, h⟩ := Option.bind_eq_some_iff.mp h
      have := ih h (fun e he => hg e (by simp only [List.mem_cons] at he ⊢; exact .inr he))
      rw [cs] at this ⊢
      rw [cs, last, hg e (by simp) u h1]
      exact this

theorem declare_c {D : List (Fn Sx)} {n : Nat} {C : List (Fn CE)} {fs X : List Str} {ρ0 : Env} {xs : List Str}
    {es : List Sx}
    (hg : ∀ e ∈ es, ∀ ρ v, (∀ f ∈ fs, ρ f = none) → ev D n ρ e = some v → cev n C ρ e.c = some v)
    (hX : ∀ x ∈ xs, x ∈ X ∧ x ∉ fs) (hd : ∀ e ∈ es, ∀ x ∈ X, x ∉ e.syms) {vs : List Val} {ρ ρ' : Env}
    (hρ : ∀ x, x ∉ X → ρ x = ρ0 x) (hfs : ∀ f ∈ fs, ρ f = none) (h : vals (ev D n ρ0) es = some vs)
    (hb : bind xs vs ρ = some ρ') : declare (cev n C) xs (cs es) ρ = some ρ' := by
  induction es generalizing xs vs ρ with
  | nil =>
    cases h
    cases xs with
    | nil => exact hb
    | cons x xs => cases hb
  | cons e es ih =>
    rw [vals] at h
    simp only [Option.bind_eq_bind] at h
    obtain ⟨v, h1, h⟩ := Option.bind_eq_some_iff.mp h
    obtain ⟨vs', h2, h⟩ := Option.bind_eq_some_iff.mp h
    cases h
    cases xs with
    | nil => cases hb
    | cons x xs =>
      obtain ⟨hxX, hxf⟩ := hX x (by simp)
      have hev : ev D n (ρ.set x none) e = some v := by
        rw [← h1]
        apply ev_agree
        intro y hy
        have hy' : y ∉ X := fun hm => hd e (by simp) y hm hy
        unfold Env.set
        rw [if_neg (by rintro rfl; exact hy' hxX)]
        exact hρ y hy'
      have hc := hg e (by simp) (ρ.set x none) v (by
        intro f hf
        unfold Env.set
        split
        · rfl
        · exact hfs f hf) hev
      rw [cs, declare, hc]
      refine ih (fun e he => hg e (by simp [he])) (fun y hy => hX y (by simp [hy]))
        (fun e he => hd e (by simp [he])) (ρ := ρ.set x (some v)) ?_ ?_ h2 hb
      · intro y hy
        unfold Env.set
        rw [if_neg (by rintro rfl; exact hy hxX)]
        exact hρ y hy
      · intro f hf
        unfold Env.set
        rw [if_neg (by rintro rfl; exact hxf hf)]
        exact hfs f hf

/-- The C for an expression has its value. -/
theorem cev_c (n : Nat) : ∀ (D0 D' : List (Fn Sx)) (ρ : Env) (e : Sx) (v : Val), GoodDefs (D0 ++ D') →
    Good (D'.map Fn.name) e → (∀ f ∈ D'.map Fn.name, ρ f = none) → ev (D0 ++ D') n ρ e = some v →
    cev n (D'.map fnC) ρ e.c = some v := by
  induction n with
  | zero => intro D0 D' ρ e v _ _ _ h; cases h
  | succ n ih =>
    intro D0 D' ρ e v hD hg hρ h
    cases hg with
    | num hn =>
      rw [Sx.c, cev, const_numeral hn]
      exact h
    | nil => exact h
    | sym hx _ =>
      rw [Sx.c, cev]
      rw [if_neg (name_not_nil hx)]
      exact h
    | bin ha hb =>
      rename_i o a b
      rw [ev] at h
      simp only [Option.bind_eq_bind] at h
      obtain ⟨x, h1, h⟩ := Option.bind_eq_some_iff.mp h
      obtain ⟨y, h2, h⟩ := Option.bind_eq_some_iff.mp h
      obtain ⟨p, hp, hp'⟩ := bin_prim o
      rw [Sx.c, cev]
      simp only [vals, ih D0 D' ρ a x hD ha hρ h1, ih D0 D' ρ b y hD hb hρ h2, Option.bind_eq_bind,
        Option.bind_some, hp]
      exact hp' _ _ _ h
    | un ha =>
      rename_i o a
      rw [ev] at h
      simp only [Option.bind_eq_bind] at h
      obtain ⟨x, h1, h⟩ := Option.bind_eq_some_iff.mp h
      obtain ⟨p, hp, hp'⟩ := un_prim o
      rw [Sx.c, cev]
      simp only [vals, ih D0 D' ρ a x hD ha hρ h1, Option.bind_eq_bind, Option.bind_some, hp]
      exact hp' _ _ h
    | ite hc ha hb =>
      rename_i c a b
      rw [ev] at h
      simp only [Option.bind_eq_bind] at h
      obtain ⟨x, h1, h⟩ := Option.bind_eq_some_iff.mp h
      rw [Sx.c, cev]
      simp only [ih D0 D' ρ c x hD hc hρ h1, Option.bind_eq_bind, Option.bind_some]
      split
      · rename_i hx; rw [if_pos hx] at h; exact ih D0 D' ρ b v hD hb hρ h
      · rename_i hx; rw [if_neg hx] at h; exact ih D0 D' ρ a v hD ha hρ h
    | whn hc ha =>
      rename_i c a
      rw [ev] at h
      simp only [Option.bind_eq_bind] at h
      obtain ⟨x, h1, h9⟩ := Option.bind_eq_some_iff.mp h
      rw [Sx.c, cev]
      simp only [ih D0 D' ρ c x hD hc hρ h1, Option.bind_eq_bind, Option.bind_some]
      split
      · rename_i hx
        rw [if_pos hx] at h9
        obtain ⟨m, rfl⟩ : ∃ m, n = m + 1 := by
          cases n with
          | zero => cases h1
          | succ m => exact ⟨m, rfl⟩
        exact h9
      · rename_i hx; rw [if_neg hx] at h9; exact ih D0 D' ρ a v hD ha hρ h9
    | letb hx hnd he hd hb =>
      rename_i xs es b
      rw [ev] at h
      simp only [Option.bind_eq_bind] at h
      obtain ⟨vs, h1, h⟩ := Option.bind_eq_some_iff.mp h
      obtain ⟨ρ', h2, h⟩ := Option.bind_eq_some_iff.mp h
      rw [Sx.c, cev]
      have := declare_c (D := D0 ++ D') (n := n) (C := D'.map fnC) (fs := D'.map Fn.name) (X := xs) (ρ0 := ρ)
        (xs := xs) (es := es) (fun e hm σ w hσ hw => ih D0 D' σ e w hD (he e hm) hσ hw)
        (fun x hm => ⟨hm, (hx x hm).2⟩) hd (fun _ _ => rfl) hρ h1 h2
      simp only [this, Option.bind_eq_bind, Option.bind_some]
      have hρ' := bind_free (fun x hm => (hx x hm).2) h2 hρ
      exact last_c h (fun e hm w hw => ih D0 D' ρ' e w hD (hb e hm) hρ' hw)
    | call hf hm ha =>
      rename_i f as
      rw [ev] at h
      simp only [Option.bind_eq_bind] at h
      obtain ⟨vs, h1, h⟩ := Option.bind_eq_some_iff.mp h
      obtain ⟨d, h2, h⟩ := Option.bind_eq_some_iff.mp h
      obtain ⟨ρ', h3, h⟩ := Option.bind_eq_some_iff.mp h
      obtain ⟨D1, d', D2, e1, e2, e3, e4, e5⟩ := lookup hm hD
      rw [e2] at h2
      cases h2
      have hv := vals_c (g' := cev n (D'.map fnC) ρ) h1 (fun e he w hw => ih D0 D' ρ e w hD (ha e he) hρ hw)
      rw [Sx.c, cev]
      simp only [hv, Option.bind_eq_bind, Option.bind_some, names_no_prim hf.1, hρ f hm, e3]
      have h3' : bind (fnC d).params vs (fun _ => none) = some ρ' := h3
      simp only [Option.isSome_none, Bool.false_eq_true, if_false, h3', Option.bind_some]
      cases e5 with
      | cons g1 g2 g3 g4 =>
        have hD' : GoodDefs ((D0 ++ D1) ++ (d :: D2)) := by rw [List.append_assoc, ← e1]; exact hD
        have hρ' := bind_free g2 h3 (fun _ _ => rfl)
        refine last_c (g' := cev n ((d :: D2).map fnC) ρ') h (fun e he w hw => ?_)
        refine ih (D0 ++ D1) (d :: D2) ρ' e w hD' (g3 e he) hρ' ?_
        rw [List.append_assoc, ← e1]
        exact hw

/-- The C for a block prints what the block prints. -/
theorem crun_c (n : Nat) {ts : List Top} {D : List (Fn Sx)} (hg : GoodProg (D.map Fn.name) ts)
    (hD : GoodDefs D) {o : Str} (h : run n D ts = some o) : crun n (D.map fnC) (ts.map Top.c) = some o := by
  induction ts generalizing D o with
  | nil => exact h
  | cons t ts ih =>
    cases hg with
    | defun hf hm hp hn hb hg =>
      rename_i f ps b
      refine ih (D := ⟨f, ps, b⟩ :: D) hg (.cons hm (fun x hx => (hp x hx).2) hb hD) h
    | print he hg =>
      rename_i nl e
      rw [run] at h
      simp only [Option.bind_eq_bind] at h
      obtain ⟨v, h1, h⟩ := Option.bind_eq_some_iff.mp h
      obtain ⟨o', h2, h⟩ := Option.bind_eq_some_iff.mp h
      have hc := cev_c n [] D (fun _ => none) e v hD he (fun _ _ => rfl) h1
      rw [List.map_cons, Top.c, crun, hc, ih hg hD h2]
      exact h
    | puts ht hg =>
      rename_i nl t
      rw [run] at h
      simp only [Option.bind_eq_bind] at h
      obtain ⟨o', h2, h⟩ := Option.bind_eq_some_iff.mp h
      rw [List.map_cons, Top.c, crun, if_neg, ih hg hD h2]
      · exact h
      · rintro (hc | hc)
        · exact (ht _ hc).2.2.1 rfl
        · exact (ht _ hc).2.1 rfl
    | expr he hg =>
      rename_i e
      rw [run] at h
      simp only [Option.bind_eq_bind] at h
      obtain ⟨v, h1, h⟩ := Option.bind_eq_some_iff.mp h
      have hc := cev_c n [] D (fun _ => none) e v hD he (fun _ _ => rfl) h1
      rw [List.map_cons, Top.c, crun, hc]
      exact ih hg hD h

/-- C130: a block of Lisp that has a meaning is turned into C that prints the same.  For every text of the
block, with any blanks and any nesting: the plugin ends, what it writes is the text of C statements, and
these print what the block prints. -/
theorem block_meaning {ts : List Top} {s : Str} (h : SrcProg ts s) (hg : GoodProg [] ts) {n : Nat} {o : Str}
    (hr : run n [] ts = some o) :
    ∃ ss, (∀ k, s.length + 1 < k → transpile k s = .ok (blockText ss)) ∧ crun n [] ss = some o :=
  ⟨ts.map Top.c, fun k hk => transpile_text h hg k hk, crun_c n (D := []) hg .nil hr⟩

/-! ## An example -/

theorem five : Numeral "5".toList 5 := .pos (n := 5) (.one (v := 5) (by decide)) (by decide)

theorem one' : Numeral "1".toList 1 := .pos (n := 1) (.one (v := 1) (by decide)) (by decide)

/-- A function that subtracts 1, and a call of it. -/
def exampleTops : List Top :=
  [.defun "dec".toList ["n".toList] [.bin .sub (.sym "n".toList) (.num "1".toList 1)],
    .print true (.call "dec".toList [.num "5".toList 5])]

theorem example_src : SrcProg exampleTops "(defun dec (n) (- n 1))\n(println (dec 5))".toList := by
  have n : Sp [] := by intro c hc; cases hc
  have b : Sp1 " ".toList := ⟨by intro c hc; rw [List.mem_singleton.mp hc]; decide, by decide⟩
  have l : Sp "\n".toList := by intro c hc; rw [List.mem_singleton.mp hc]; decide
  have h1 := Src.bin (o := .sub) n b (.sym (x := "n".toList)) b (.num (s := "1".toList) (n := 1)) n
  have h2 := SrcT.defun (f := "dec".toList) n b b.1 (.one (x := "n".toList) n n) (.cons b h1 (.nil n))
  have h3 := Src.call (f := "dec".toList) n (.cons b (.num (s := "5".toList) (n := 5)) (.nil n))
  have h4 := SrcT.print (nl := true) n b h3 n
  exact SrcProg.cons n h2 (.cons l h4 (.nil n) (.inl rfl)) (.inr ⟨'\n', _, rfl, by decide⟩)

theorem example_good : GoodProg [] exampleTops := by
  have hn : Name "n".toList := ⟨⟨'n', [], rfl, by decide, by intro d hd; cases hd⟩, by decide, by decide⟩
  have hd : Name "dec".toList := ⟨⟨'d', ['e', 'c'], rfl, by decide, by decide⟩, by decide, by decide⟩
  have hf : FName "dec".toList := ⟨hd, by decide, by decide⟩
  refine .defun hf (by simp) ?_ (by simp) ?_ (.print (.call hf (by simp) ?_) .nil)
  · intro x hx
    rw [List.mem_singleton.mp hx]
    exact ⟨hn, by decide⟩
  · intro e he
    rw [List.mem_singleton.mp he]
    exact .bin (.sym hn (by decide)) (.num one')
  · intro e he
    rw [List.mem_singleton.mp he]
    exact .num five

/-- The example: it prints 4. -/
example : ∃ ss, (∀ k, 43 < k →
      transpile k "(defun dec (n) (- n 1))\n(println (dec 5))".toList = .ok (blockText ss)) ∧
    crun 4 [] ss = some "4\n".toList := by
  have h := block_meaning example_src example_good (n := 4) (o := "4\n".toList) (by decide +kernel)
  obtain ⟨ss, h1, h2⟩ := h
  exact ⟨ss, fun k hk => h1 k (by
    rw [show "(defun dec (n) (- n 1))\n(println (dec 5))".toList.length = 41 from by decide]
    omega), h2⟩

end Verif.Lisp
