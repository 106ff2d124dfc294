import Verif.Defer.Lemmas

/-!
# Simulation: runs of the printed C against intended runs
-/

namespace Verif.Defer

open Spec (Clean clean clean1 leave back)

/-- an event that is no destructor call for a variable without an object -/
def real : Ev → Bool
  | .drop (.obj _) => true
  | .drop _ => false
  | _ => true

/-- a run without destructor calls for variables that hold no object -/
def erase (t : List Ev) : List Ev := t.filter real

theorem erase_append (a b : List Ev) : erase (a ++ b) = erase a ++ erase b := by simp [erase]
theorem erase_nil : erase [] = [] := rfl

/-- flags of variables that hold an object are set -/
def Inv (σ : CSt) : Prop := ∀ c i, σ.sto.val c = .obj i → σ.flag c = true

/-- the compile-time stack describes the cleanups to be done -/
def Match (ρ : Env) : List Cl → List Clean → Prop
  | [], [] => True
  | .act a :: ds, .act a' ρ' :: ks =>
    a = a' ∧ (∀ x ∈ a.names, look ρ' x = look ρ x) ∧ Match ρ ds ks
  | .drop x :: ds, .drop c :: ks => look ρ x = some c ∧ Match ρ ds ks
  | _, _ => False

theorem Match.length {ρ : Env} : ∀ {ds : List Cl} {ks : List Clean}, Match ρ ds ks →
    ds.length = ks.length
  | [], [], _ => rfl
  | .act _ :: ds, .act _ _ :: ks, h => by simp [Match.length h.2.2]
  | .drop _ :: ds, .drop _ :: ks, h => by simp [Match.length h.2]
  | [], _ :: _, h => by simp [Match] at h
  | .act _ :: _, [], h => by simp [Match] at h
  | .drop _ :: _, [], h => by simp [Match] at h
  | .act _ :: _, .drop _ :: _, h => by simp [Match] at h
  | .drop _ :: _, .act _ _ :: _, h => by simp [Match] at h

theorem Match.take {ρ : Env} : ∀ {ds : List Cl} {ks : List Clean} (n : Nat), Match ρ ds ks →
    Match ρ (ds.take n) (ks.take n)
  | _, _, 0, _ => by simp [Match]
  | [], [], _, _ => by simp [Match]
  | .act _ :: ds, .act _ _ :: ks, n + 1, h => ⟨h.1, h.2.1, Match.take n h.2.2⟩
  | .drop _ :: ds, .drop _ :: ks, n + 1, h => ⟨h.1, Match.take n h.2⟩
  | [], _ :: _, _, h => by simp [Match] at h
  | .act _ :: _, [], _, h => by simp [Match] at h
  | .drop _ :: _, [], _, h => by simp [Match] at h
  | .act _ :: _, .drop _ :: _, _, h => by simp [Match] at h
  | .drop _ :: _, .act _ _ :: _, _, h => by simp [Match] at h

theorem Match.drop {ρ : Env} : ∀ {ds : List Cl} {ks : List Clean} (n : Nat), Match ρ ds ks →
    Match ρ (ds.drop n) (ks.drop n)
  | _, _, 0, h => by simpa using h
  | [], [], _, _ => by simp [Match]
  | .act _ :: ds, .act _ _ :: ks, n + 1, h => Match.drop n h.2.2
  | .drop _ :: ds, .drop _ :: ks, n + 1, h => Match.drop n h.2
  | [], _ :: _, _, h => by simp [Match] at h
  | .act _ :: _, [], _, h => by simp [Match] at h
  | .drop _ :: _, [], _, h => by simp [Match] at h
  | .act _ :: _, .drop _ :: _, _, h => by simp [Match] at h
  | .drop _ :: _, .act _ _ :: _, _, h => by simp [Match] at h

theorem look_cons (x y : Name) (c : Nat) (ρ : Env) (h : x ≠ y) : look ((y, c) :: ρ) x = look ρ x := by
  have : (x == y) = false := by simpa using h
  simp [look, List.lookup, this]

theorem look_self (y : Name) (c : Nat) (ρ : Env) : look ((y, c) :: ρ) y = some c := by
  simp [look, List.lookup]

theorem Match.cons {ρ : Env} (y : Name) (n : Nat) : ∀ {ds : List Cl} {ks : List Clean},
    clear y ds = true → Match ρ ds ks → Match ((y, n) :: ρ) ds ks
  | [], [], _, _ => trivial
  | .act a :: ds, .act _ ρ' :: ks, hc, h => by
    simp only [clear, List.all_cons, Bool.and_eq_true] at hc
    have hc1 : y ∉ a.names := by simpa [Cl.names] using hc.1
    refine ⟨h.1, fun x hx => ?_, Match.cons y n hc.2 h.2.2⟩
    rw [look_cons x y n ρ (fun e => hc1 (e ▸ hx))]
    exact h.2.1 x hx
  | .drop x :: ds, .drop c :: ks, hc, h => by
    simp only [clear, List.all_cons, Bool.and_eq_true] at hc
    have hc1 : y ≠ x := by simpa [Cl.names] using hc.1
    refine ⟨?_, Match.cons y n hc.2 h.2⟩
    rw [look_cons _ _ _ _ (fun e => hc1 e.symm)]
    exact h.1
  | [], _ :: _, _, h => by simp [Match] at h
  | .act _ :: _, [], _, h => by simp [Match] at h
  | .drop _ :: _, [], _, h => by simp [Match] at h
  | .act _ :: _, .drop _ :: _, _, h => by simp [Match] at h
  | .drop _ :: _, .act _ _ :: _, _, h => by simp [Match] at h

/-! ## C runs of lists -/

theorem runCL_nil (orc : Nat → Bool) (n : Nat) (σ : CSt) :
    runCL orc n (ofList []) σ = (.norm, [], σ) := rfl

theorem runCL_one (orc : Nat → Bool) (n : Nat) (s : CStmt) (σ : CSt) :
    runCL orc n (ofList [s]) σ = runC orc n s σ := by
  simp only [ofList, runCL]
  generalize runC orc n s σ = r
  obtain ⟨o, t, σ'⟩ := r
  cases o <;> simp

theorem runCL_append (orc : Nat → Bool) (n : Nat) (a b : List CStmt) (σ : CSt) :
    runCL orc n (ofList (a ++ b)) σ =
      match (runCL orc n (ofList a) σ).1 with
      | .norm =>
        ((runCL orc n (ofList b) (runCL orc n (ofList a) σ).2.2).1,
          (runCL orc n (ofList a) σ).2.1 ++ (runCL orc n (ofList b) (runCL orc n (ofList a) σ).2.2).2.1,
          (runCL orc n (ofList b) (runCL orc n (ofList a) σ).2.2).2.2)
      | o => (o, (runCL orc n (ofList a) σ).2.1, (runCL orc n (ofList a) σ).2.2) := by
  induction a generalizing σ with
  | nil => simp [ofList, runCL]
  | cons s a ih =>
    simp only [List.cons_append, ofList, runCL]
    generalize runC orc n s σ = r
    obtain ⟨o, t, σ'⟩ := r
    cases o
    · simp only [ih]
      generalize runCL orc n (ofList a) σ' = q
      obtain ⟨o, t', σ''⟩ := q
      cases o <;> simp
    all_goals rfl

/-! ## Cleanups -/

theorem clean_append (a b : List Clean) (s : Sto) :
    clean (a ++ b) s = ((clean a s).1 ++ (clean b (clean a s).2).1, (clean b (clean a s).2).2) := by
  induction a generalizing s with
  | nil => simp [clean]
  | cons k a ih => simp [clean, ih]

theorem get_congr (s : Sto) {ρ ρ' : Env} {x : Name} (h : look ρ' x = look ρ x) :
    s.get ρ' x = s.get ρ x := by simp [Sto.get, h]

theorem set_congr (s : Sto) {ρ ρ' : Env} {x : Name} (v : Val) (h : look ρ' x = look ρ x) :
    s.set ρ' x v = s.set ρ x v := by simp [Sto.set, h]

theorem Inv.gone {σ : CSt} (h : Inv σ) (x : Name) :
    Inv (({ σ with sto := σ.sto.set σ.env x .gone } : CSt).setFlag x false) := by
  intro c i
  simp only [CSt.setFlag, Sto.set]
  cases hx : look σ.env x with
  | none => exact h c i
  | some d =>
    simp only [upd]
    by_cases hc : c = d
    · simp [hc]
    · simp only [hc, if_false]; exact h c i

theorem Inv.zero {σ : CSt} (h : Inv σ) (x : Name) :
    Inv { σ with sto := σ.sto.set σ.env x .gone } := by
  intro c i
  simp only [Sto.set]
  cases hx : look σ.env x with
  | none => exact h c i
  | some d =>
    simp only [upd]
    by_cases hc : c = d
    · simp [hc]
    · simp only [hc, if_false]; exact h c i

theorem setFlag_env (σ : CSt) (x : Name) (b : Bool) : (σ.setFlag x b).env = σ.env := by
  unfold CSt.setFlag; split <;> rfl
theorem setFlag_sto (σ : CSt) (x : Name) (b : Bool) : (σ.setFlag x b).sto = σ.sto := by
  unfold CSt.setFlag; split <;> rfl

/-- an expression statement in C and in Zen-C, seen from environments that agree on its names -/
theorem act_sim (orc : Nat → Bool) (a : Act) (σ : CSt) (ρ : Env)
    (hn : ∀ x ∈ a.names, look ρ x = look σ.env x) (hi : Inv σ) :
    (runP orc a.prim σ).1 = .norm ∧ (runP orc a.prim σ).2.1 = (Spec.act a ρ σ.sto).1 ∧
    erase (Spec.act a ρ σ.sto).1 = (Spec.act a ρ σ.sto).1 ∧
    (runP orc a.prim σ).2.2.env = σ.env ∧
    (runP orc a.prim σ).2.2.sto = (Spec.act a ρ σ.sto).2 ∧ Inv (runP orc a.prim σ).2.2 := by
  cases a with
  | use a xs =>
    refine ⟨rfl, ?_, rfl, rfl, rfl, hi⟩
    simp only [Act.prim, runP, Spec.act, List.cons.injEq, and_true, Ev.use.injEq, true_and]
    exact List.map_congr_left fun x hx => (get_congr _ (hn x hx)).symm
  | consume x =>
    have hx := hn x (by simp [Act.names])
    refine ⟨rfl, ?_, rfl, ?_, ?_, hi.gone x⟩
    · simp [Act.prim, runP, Spec.act, get_congr _ hx]
    · simp [Act.prim, runP, setFlag_env]
    · simp [Act.prim, runP, setFlag_sto, Spec.act, set_congr _ _ hx]

theorem cl_sim (orc : Nat → Bool) (n : Nat) : ∀ (ds : List Cl) (ks : List Clean) (σ : CSt),
    Match σ.env ds ks → Inv σ →
    (runCL orc n (ofList (ds.map Cl.stmt)) σ).1 = .norm ∧
    erase (runCL orc n (ofList (ds.map Cl.stmt)) σ).2.1 = (clean ks σ.sto).1 ∧
    (runCL orc n (ofList (ds.map Cl.stmt)) σ).2.2.env = σ.env ∧
    (runCL orc n (ofList (ds.map Cl.stmt)) σ).2.2.sto = (clean ks σ.sto).2 ∧
    Inv (runCL orc n (ofList (ds.map Cl.stmt)) σ).2.2
  | [], [], σ, _, hi => ⟨rfl, rfl, rfl, rfl, hi⟩
  | .act a :: ds, .act a' ρ' :: ks, σ, h, hi => by
    obtain ⟨rfl, hn, hm⟩ := h
    obtain ⟨h1, h2, h3, h4, h5, h6⟩ := act_sim orc a σ ρ' hn hi
    have := cl_sim orc n ds ks (runP orc a.prim σ).2.2 (by rw [h4]; exact hm) h6
    simp only [List.map_cons, ofList, runCL, Cl.stmt, runC, h1]
    obtain ⟨g1, g2, g3, g4, g5⟩ := this
    refine ⟨g1, ?_, by rw [g3, h4], ?_, g5⟩
    · simp only [erase_append, clean, clean1]; rw [g2, h2, h3, h5]
    · simp only [clean, clean1]; rw [g4, h5]
  | .drop x :: ds, .drop c :: ks, σ, h, hi => by
    obtain ⟨hx, hm⟩ := h
    obtain ⟨g1, g2, g3, g4, g5⟩ := cl_sim orc n ds ks σ hm hi
    have h2 : (clean1 (.drop c) σ.sto).2 = σ.sto := by
      simp only [clean1]; split <;> rfl
    simp only [List.map_cons, ofList, runCL, Cl.stmt, runC, runP, hx]
    refine ⟨g1, ?_, g3, ?_, g5⟩
    · simp only [erase_append, clean, h2, g2, List.append_cancel_right_eq]
      have := hi c
      simp only [clean1]
      cases hv : σ.sto.val c with
      | obj i => simp [this i hv, erase, real]
      | num k => cases σ.flag c <;> simp [erase, real]
      | gone => cases σ.flag c <;> simp [erase, real]
    · simp only [clean, h2, g4]
  | [], _ :: _, _, h, _ => by simp [Match] at h
  | .act _ :: _, [], _, h, _ => by simp [Match] at h
  | .drop _ :: _, [], _, h, _ => by simp [Match] at h
  | .act _ :: _, .drop _ :: _, _, h, _ => by simp [Match] at h
  | .drop _ :: _, .act _ _ :: _, _, h, _ => by simp [Match] at h

/-! ## Names declared in C statements -/

/-- statements that end with the variables they started with -/
def noDecl : CStmt → Bool
  | .prim (.fresh _) | .prim (.num _ _) | .prim (.letMove _ _) => false
  | .prim _ => true
  | .block _ => true
  | .ifS _ _ t => noDecl t
  | .ifElse _ _ t e => noDecl t && noDecl e
  | .loop _ b => noDecl b
  | .doWhile b _ => noDecl b

theorem iter_env {cond : CSt → Bool × List Ev × CSt} {body : CSt → Out × List Ev × CSt}
    (hc : ∀ σ, (cond σ).2.2.env = σ.env) (hb : ∀ σ, (body σ).2.2.env = σ.env) :
    ∀ n σ, (iter cond body n σ).2.2.env = σ.env
  | 0, σ => rfl
  | n + 1, σ => by
    simp only [iter]
    split
    · have h1 := hb (cond σ).2.2
      have h2 := iter_env hc hb n (body (cond σ).2.2).2.2
      split <;> simp [h1, h2, hc]
    · exact hc σ

theorem iterDo_env {cond : CSt → Bool × List Ev × CSt} {body : CSt → Out × List Ev × CSt}
    (hc : ∀ σ, (cond σ).2.2.env = σ.env) (hb : ∀ σ, (body σ).2.2.env = σ.env) :
    ∀ n σ, (iterDo cond body n σ).2.2.env = σ.env
  | 0, σ => rfl
  | n + 1, σ => by
    simp only [iterDo]
    have h2 := iterDo_env hc hb n (cond (body σ).2.2).2.2
    split
    · split <;> simp [h2, hc, hb]
    · split <;> simp [h2, hc, hb]
    · exact hb σ
    · exact hb σ

theorem testS_env (orc : Nat → Bool) (c : Option Nat) (σ : CSt) :
    (testS orc c σ).2.2.env = σ.env := rfl

theorem noDecl_env (orc : Nat → Bool) (n : Nat) : ∀ (s : CStmt) (σ : CSt), noDecl s = true →
    (runC orc n s σ).2.2.env = σ.env
  | .prim p, σ, h => by
    cases p <;> simp [noDecl] at h <;> simp only [runC, runP, setFlag_env]
    case dropIf x => split <;> rfl
    case retv a => cases a <;> simp [setFlag_env]
  | .block ss, σ, _ => rfl
  | .ifS neg c t, σ, h => by
    simp only [noDecl] at h
    simp only [runC]
    split
    · exact noDecl_env orc n t _ h
    · rfl
  | .ifElse neg c t e, σ, h => by
    simp only [noDecl, Bool.and_eq_true] at h
    simp only [runC]
    split
    · exact noDecl_env orc n t _ h.1
    · exact noDecl_env orc n e _ h.2
  | .loop c b, σ, h => by
    simp only [noDecl] at h
    exact iter_env (testS_env orc c) (fun τ => noDecl_env orc n b τ h) n σ
  | .doWhile b c, σ, h => by
    simp only [noDecl] at h
    exact iterDo_env (testS_env orc _) (fun τ => noDecl_env orc n b τ h) n σ

theorem single_noDecl : ∀ (s : Stmt) (ds : List Cl) (bs : List Nat), ok s ds bs = true →
    single s ds bs = true → noDecl (one (tree s ds bs)) = true
  | .act a, ds, bs, _, _ => by cases a <;> rfl
  | .decl x, ds, bs, _, h => by simp [single] at h
  | .val x k, ds, bs, _, h => by simp [single] at h
  | .letMove y x, ds, bs, _, h => by simp [single] at h
  | .assign x, ds, bs, h, _ => by simp [ok] at h
  | .defer a, ds, bs, _, h => by simp [single] at h
  | .block ss, ds, bs, _, _ => rfl
  | .ifS c t, ds, bs, h, _ => by
    simp only [ok, Bool.and_eq_true] at h
    simp only [tree, one, noDecl]
    exact single_noDecl t ds bs h.2 (single_block t ds bs h.1)
  | .ifElse c t e, ds, bs, h, _ => by
    simp only [ok, Bool.and_eq_true] at h
    simp only [tree, one, noDecl, Bool.and_eq_true]
    exact ⟨single_noDecl t ds bs h.1.1.2 (single_block t ds bs h.1.1.1),
      single_noDecl e ds bs h.2 h.1.2⟩
  | .guard c b, ds, bs, h, _ => by
    simp only [ok, Bool.and_eq_true] at h
    simp only [tree, one, noDecl]
    exact single_noDecl b ds bs h.2 h.1
  | .loop c b, ds, bs, h, _ => by
    simp only [ok, Bool.and_eq_true] at h
    simp only [tree, one, noDecl]
    exact single_noDecl b ds _ h.2 h.1
  | .doWhile b c, ds, bs, h, _ => by
    simp only [ok, Bool.and_eq_true] at h
    simp only [tree, one, noDecl]
    exact single_noDecl b ds _ h.2 h.1
  | .brk, ds, bs, _, h => by
    have := tree_single .brk ds bs h
    cases bs with
    | nil => rfl
    | cons b bs => simp [single] at h; subst h; simp [tree, unw, one, noDecl]
  | .cont, ds, bs, _, h => by
    cases bs with
    | nil => rfl
    | cons b bs => simp [single] at h; subst h; simp [tree, unw, one, noDecl]
  | .brkL l, ds, bs, _, h => by simp [single] at h
  | .ret, ds, bs, _, h => by
    simp [single] at h; subst h; rfl
  | .retv a, ds, bs, _, _ => by
    simp only [tree]
    split <;> rfl
  | .retMove x, ds, bs, _, _ => rfl
  | .retSlice a, ds, bs, _, _ => rfl
  | .attempt c, ds, bs, _, _ => rfl

/-! ## The simulation -/

/-- cleanups between the innermost loop and here -/
def upto (b : Nat) (ks : List Clean) : List Clean := ks.take (ks.length - b)

theorem upto_append (b : Nat) (a ks : List Clean) (h : b ≤ ks.length) :
    upto b (a ++ ks) = a ++ upto b ks := by
  unfold upto
  have : (a ++ ks).length - b = a.length + (ks.length - b) := by simp; omega
  rw [this, List.take_append, List.take_of_length_le (by omega)]
  simp

theorem upto_self (ks : List Clean) : upto ks.length ks = [] := by simp [upto]

/-- Runs of a statement list inside a scope.  `outer`: cleanups of the scopes around it. -/
def Sim (bs : List Nat) (ds : List Cl) (outer : List Clean) (r : Out × List Ev × Spec.St)
    (c : Out × List Ev × CSt) : Prop :=
  c.1 = r.1 ∧
  match r.1 with
  | .norm => erase c.2.1 = r.2.1 ∧ c.2.2.env = r.2.2.env ∧ c.2.2.sto = r.2.2.sto ∧
      Match r.2.2.env ds (r.2.2.cl ++ outer) ∧ Inv c.2.2
  | .brk | .cont => ∃ b bs', bs = b :: bs' ∧
      erase c.2.1 = r.2.1 ++ (clean (upto b (r.2.2.cl ++ outer)) r.2.2.sto).1 ∧
      c.2.2.sto = (clean (upto b (r.2.2.cl ++ outer)) r.2.2.sto).2 ∧ Inv c.2.2
  | .ret => erase c.2.1 = r.2.1 ++ (clean (r.2.2.cl ++ outer) r.2.2.sto).1
  | .cut => erase c.2.1 = r.2.1

/-- Runs of a whole scope. -/
def SimB (bs : List Nat) (outer : List Clean) (ρ : Env) (r : Out × List Ev × Sto)
    (c : Out × List Ev × CSt) : Prop :=
  c.1 = r.1 ∧ c.2.2.env = ρ ∧
  match r.1 with
  | .norm => erase c.2.1 = r.2.1 ∧ c.2.2.sto = r.2.2 ∧ Inv c.2.2
  | .brk | .cont => ∃ b bs', bs = b :: bs' ∧
      erase c.2.1 = r.2.1 ++ (clean (upto b outer) r.2.2).1 ∧
      c.2.2.sto = (clean (upto b outer) r.2.2).2 ∧ Inv c.2.2
  | .ret => erase c.2.1 = r.2.1 ++ (clean outer r.2.2).1
  | .cut => erase c.2.1 = r.2.1

/-- the innermost loop lies outside the current scope -/
def Bound (bs : List Nat) (outer : List Clean) : Prop := ∀ b bs', bs = b :: bs' → b ≤ outer.length

/-- a body that is printed as one statement, as a scope of its own -/
theorem scope_of_sim {bs : List Nat} {ds : List Cl} {outer : List Clean} {ρ : Env}
    {r : Out × List Ev × Spec.St} {c : Out × List Ev × CSt}
    (hs : Sim bs ds outer r c) (hb : Bound bs outer) (hl : ds.length = outer.length)
    (he : c.2.2.env = ρ) : SimB bs outer ρ (leave r) c := by
  obtain ⟨o, t, σ⟩ := r
  obtain ⟨h1, h2⟩ := hs
  cases o
  · obtain ⟨h3, h4, h5, h6, h7⟩ := h2
    have hk : σ.cl = [] := by
      have := h6.length
      simp at this
      cases hc : σ.cl with
      | nil => rfl
      | cons k ks => rw [hc] at this; simp at this; omega
    refine ⟨h1, he, ?_, ?_, h7⟩ <;> simp [leave, hk, clean, h3, h5]
  · obtain ⟨b, bs', hbs, h3, h4, h5⟩ := h2
    rw [upto_append b _ _ (hb b bs' hbs), clean_append] at h3 h4
    exact ⟨h1, he, b, bs', hbs, by simpa [leave] using h3, h4, h5⟩
  · obtain ⟨b, bs', hbs, h3, h4, h5⟩ := h2
    rw [upto_append b _ _ (hb b bs' hbs), clean_append] at h3 h4
    exact ⟨h1, he, b, bs', hbs, by simpa [leave] using h3, h4, h5⟩
  · refine ⟨h1, he, ?_⟩
    simp only at h2
    rw [clean_append] at h2
    simpa [leave] using h2
  · exact ⟨h1, he, h2⟩

/-- a compound statement seen from the scope around it -/
theorem sim_of_scope {bs : List Nat} {ds : List Cl} {outer : List Clean} {σ : Spec.St}
    {r : Out × List Ev × Sto} {c : Out × List Ev × CSt}
    (h : SimB bs (σ.cl ++ outer) σ.env r c) (hm : Match σ.env ds (σ.cl ++ outer)) :
    Sim bs ds outer (back σ r) c := by
  obtain ⟨o, t, s⟩ := r
  obtain ⟨h1, he, h2⟩ := h
  cases o
  · exact ⟨h1, h2.1, he, h2.2.1, hm, h2.2.2⟩
  · exact ⟨h1, h2⟩
  · exact ⟨h1, h2⟩
  · exact ⟨h1, h2⟩
  · exact ⟨h1, h2⟩

/-- an event before a scope -/
theorem simB_pre {bs : List Nat} {outer : List Clean} {ρ : Env} {r : Out × List Ev × Sto}
    {c : Out × List Ev × CSt} (p p' : List Ev) (hp : erase p' = p) (h : SimB bs outer ρ r c) :
    SimB bs outer ρ (r.1, p ++ r.2.1, r.2.2) (c.1, p' ++ c.2.1, c.2.2) := by
  obtain ⟨o, t, s⟩ := r
  obtain ⟨h1, he, h2⟩ := h
  refine ⟨h1, he, ?_⟩
  cases o <;> simp only [erase_append, hp, List.append_assoc] at h2 ⊢
  · exact ⟨by rw [h2.1], h2.2⟩
  · obtain ⟨b, bs', g1, g2, g3⟩ := h2
    exact ⟨b, bs', g1, by rw [g2], g3⟩
  · obtain ⟨b, bs', g1, g2, g3⟩ := h2
    exact ⟨b, bs', g1, by rw [g2], g3⟩
  · rw [h2]
  · rw [h2]

theorem erase_test (orc : Nat → Bool) (c : Option Nat) (s : Sto) :
    erase (testO orc c s).2.1 = (testO orc c s).2.1 := by cases c <;> rfl

theorem inv_test {σ : CSt} (orc : Nat → Bool) (c : Option Nat) (h : Inv σ) :
    Inv (testS orc c σ).2.2 := by
  cases c <;> exact h

/-- loops -/
theorem iter_sim (orc : Nat → Bool) {c : Option Nat} {bs : List Nat} {outer : List Clean} {ρ : Env}
    {body : Sto → Out × List Ev × Sto} {cbody : CSt → Out × List Ev × CSt}
    (hb : ∀ σ : CSt, σ.env = ρ → Inv σ → SimB (outer.length :: bs) outer ρ (body σ.sto) (cbody σ)) :
    ∀ (n : Nat) (σ : CSt), σ.env = ρ → Inv σ →
      SimB bs outer ρ (iter (testO orc c) body n σ.sto) (iter (testS orc c) cbody n σ)
  | 0, σ, he, hi => ⟨rfl, he, rfl⟩
  | n + 1, σ, he, hi => by
    have hE := erase_test orc c σ.sto
    have hI := inv_test orc c hi
    have hB := hb (testS orc c σ).2.2 he hI
    have hS : (testS orc c σ).2.2.sto = (testO orc c σ.sto).2.2 := rfl
    have hT : (testS orc c σ).2.1 = (testO orc c σ.sto).2.1 := rfl
    have hC : (testS orc c σ).1 = (testO orc c σ.sto).1 := rfl
    rw [hS] at hB
    simp only [iter, hC]
    by_cases ht : (testO orc c σ.sto).1 = true
    · simp only [ht, if_true, hT]
      generalize body (testO orc c σ.sto).2.2 = r at hB ⊢
      generalize cbody (testS orc c σ).2.2 = q at hB ⊢
      obtain ⟨o, t, s⟩ := r
      obtain ⟨o', t', σ'⟩ := q
      obtain ⟨h1, h2, h3⟩ := hB
      simp only at h1 h2
      subst h1
      cases o'
      · obtain ⟨g1, g2, g3⟩ := h3
        simp only at g1 g2 g3 ⊢
        have ih := iter_sim orc (c := c) hb n σ' h2 g3
        rw [g2] at ih
        exact simB_pre _ _ hE (simB_pre t t' g1 ih)
      · obtain ⟨b, bs', g0, g1, g2, g3⟩ := h3
        obtain ⟨rfl, rfl⟩ := List.cons.inj g0
        simp only [upto_self, clean, List.append_nil] at g1 g2 g3 ⊢
        exact ⟨rfl, h2, by simp only [erase_append, hE, g1], g2, g3⟩
      · obtain ⟨b, bs', g0, g1, g2, g3⟩ := h3
        obtain ⟨rfl, rfl⟩ := List.cons.inj g0
        simp only [upto_self, clean, List.append_nil] at g1 g2 g3 ⊢
        have ih := iter_sim orc (c := c) hb n σ' h2 g3
        rw [g2] at ih
        exact simB_pre _ _ hE (simB_pre t t' g1 ih)
      · exact ⟨rfl, h2, by simp only at h3; simp only [erase_append, hE, h3, List.append_assoc]⟩
      · exact ⟨rfl, h2, by simp only at h3; simp only [erase_append, hE, h3]⟩
    · simp only [ht]
      exact ⟨rfl, he, hE, rfl, hI⟩

/-- loops that test after their body -/
theorem iterDo_sim (orc : Nat → Bool) {c : Nat} {bs : List Nat} {outer : List Clean} {ρ : Env}
    {body : Sto → Out × List Ev × Sto} {cbody : CSt → Out × List Ev × CSt}
    (hb : ∀ σ : CSt, σ.env = ρ → Inv σ → SimB (outer.length :: bs) outer ρ (body σ.sto) (cbody σ)) :
    ∀ (n : Nat) (σ : CSt), σ.env = ρ → Inv σ →
      SimB bs outer ρ (iterDo (testC orc c) body n σ.sto) (iterDo (testS orc (some c)) cbody n σ)
  | 0, σ, he, hi => ⟨rfl, he, rfl⟩
  | n + 1, σ, he, hi => by
    have hB := hb σ he hi
    simp only [iterDo]
    generalize body σ.sto = r at hB ⊢
    generalize cbody σ = q at hB ⊢
    obtain ⟨o, t, s⟩ := r
    obtain ⟨o', t', σ'⟩ := q
    obtain ⟨h1, h2, h3⟩ := hB
    simp only at h1 h2
    subst h1
    have key : erase t' = t → σ'.sto = s → Inv σ' → SimB bs outer ρ
        (if (testC orc c s).1 = true then
          ((iterDo (testC orc c) body n (testC orc c s).2.2).1,
            t ++ ((testC orc c s).2.1 ++ (iterDo (testC orc c) body n (testC orc c s).2.2).2.1),
            (iterDo (testC orc c) body n (testC orc c s).2.2).2.2)
         else (.norm, t ++ (testC orc c s).2.1, (testC orc c s).2.2))
        (if (testS orc (some c) σ').1 = true then
          ((iterDo (testS orc (some c)) cbody n (testS orc (some c) σ').2.2).1,
            t' ++ ((testS orc (some c) σ').2.1 ++
              (iterDo (testS orc (some c)) cbody n (testS orc (some c) σ').2.2).2.1),
            (iterDo (testS orc (some c)) cbody n (testS orc (some c) σ').2.2).2.2)
         else (.norm, t' ++ (testS orc (some c) σ').2.1, (testS orc (some c) σ').2.2)) := by
      intro g1 g2 g3
      have hI := inv_test orc (some c) g3
      have hS : (testS orc (some c) σ').2.2.sto = (testC orc c s).2.2 := by rw [← g2]; rfl
      have hT : (testS orc (some c) σ').2.1 = (testC orc c s).2.1 := by rw [← g2]; rfl
      have hC : (testS orc (some c) σ').1 = (testC orc c s).1 := by rw [← g2]; rfl
      rw [hC, hT]
      by_cases ht : (testC orc c s).1 = true
      · simp only [ht, if_true]
        have ih := iterDo_sim orc (c := c) hb n (testS orc (some c) σ').2.2 h2 hI
        rw [hS] at ih
        exact simB_pre t t' g1 (simB_pre _ (testC orc c s).2.1 rfl ih)
      · simp only [ht]
        exact ⟨rfl, h2, by show erase (t' ++ _) = t ++ _; rw [erase_append, g1]; rfl, hS, hI⟩
    cases o'
    · obtain ⟨g1, g2, g3⟩ := h3
      exact key g1 g2 g3
    · obtain ⟨b, bs', g0, g1, g2, g3⟩ := h3
      obtain ⟨rfl, rfl⟩ := List.cons.inj g0
      simp only [upto_self, clean, List.append_nil] at g1 g2 g3 ⊢
      exact ⟨rfl, h2, g1, g2, g3⟩
    · obtain ⟨b, bs', g0, g1, g2, g3⟩ := h3
      obtain ⟨rfl, rfl⟩ := List.cons.inj g0
      simp only [upto_self, clean, List.append_nil] at g1 g2 g3 ⊢
      exact key g1 g2 g3
    · exact ⟨rfl, h2, h3⟩
    · exact ⟨rfl, h2, h3⟩

/-- an exit that prints deferred statements first: `unw ds b` and then one statement -/
theorem exit_sim (orc : Nat → Bool) (n : Nat) (ds : List Cl) (ks : List Clean) (b : Nat) (p : Prim)
    (o : Out) (hp : ∀ σ, runP orc p σ = (o, [], σ)) (σ : CSt) (hm : Match σ.env ds ks) (hi : Inv σ) :
    (runCL orc n (ofList (unw ds b ++ [.prim p])) σ).1 = o ∧
    erase (runCL orc n (ofList (unw ds b ++ [.prim p])) σ).2.1 = (clean (upto b ks) σ.sto).1 ∧
    (runCL orc n (ofList (unw ds b ++ [.prim p])) σ).2.2.sto = (clean (upto b ks) σ.sto).2 ∧
    Inv (runCL orc n (ofList (unw ds b ++ [.prim p])) σ).2.2 := by
  have hl := hm.length
  have h := cl_sim orc n (ds.take (ds.length - b)) (upto b ks) σ
    (by unfold upto; rw [← hl]; exact hm.take _) hi
  obtain ⟨h1, h2, h3, h4, h5⟩ := h
  rw [runCL_append]
  simp only [unw, h1, runCL_one, runC, hp, List.append_nil]
  exact ⟨trivial, h2, h4, h5⟩

theorem upto_zero (ks : List Clean) : upto 0 ks = ks := by simp [upto]

variable (orc : Nat → Bool) (n : Nat)

/-- what the simulation says about one statement -/
def SimAt (s : Stmt) : Prop :=
  ∀ (ds : List Cl) (bs : List Nat) (σ : Spec.St) (c : CSt) (outer : List Clean),
    ok s ds bs = true → c.env = σ.env → c.sto = σ.sto → Inv c →
    Match σ.env ds (σ.cl ++ outer) → Bound bs outer →
    Sim bs (emit s ds bs).2 outer (Spec.run orc n s σ) (runCL orc n (ofList (tree s ds bs)) c)

/-- a body printed as one statement, as a scope -/
theorem body_sim {s : Stmt} (ih : SimAt orc n s) (ds : List Cl) (bs : List Nat) (ρ : Env)
    (c : CSt) (outer : List Clean) (hok : ok s ds bs = true) (hs : single s ds bs = true)
    (he : c.env = ρ) (hi : Inv c) (hm : Match ρ ds outer) (hb : Bound bs outer) :
    SimB bs outer ρ (leave (Spec.run orc n s ⟨ρ, [], c.sto⟩)) (runC orc n (one (tree s ds bs)) c) := by
  have h := ih ds bs ⟨ρ, [], c.sto⟩ c outer hok he rfl hi hm hb
  rw [tree_single s ds bs hs, runCL_one, emit_single s ds bs hok hs] at h
  refine scope_of_sim h hb hm.length ?_
  rw [noDecl_env orc n _ c (single_noDecl s ds bs hok hs), he]

theorem sim_ext {bs : List Nat} {ds : List Cl} {outer : List Clean} {r r' : Out × List Ev × Spec.St}
    {c : Out × List Ev × CSt} (h : Sim bs ds outer r c) (e : r = r') : Sim bs ds outer r' c := e ▸ h

theorem push_lt {d : Cl} {ds : List Cl} (h : ds.length < maxDefer) : push d ds = d :: ds := by
  simp [push, h]

theorem clear_bound {bs : List Nat} {a outer : List Clean} (h : Bound bs outer) :
    Bound bs (a ++ outer) := fun b bs' e => by
  have := h b bs' e
  simp; omega

mutual
theorem sim : ∀ (s : Stmt), SimAt orc n s
  | .act a, ds, bs, σ, c, outer, hok, he, hs, hi, hm, hb => by
    obtain ⟨h1, h2, h3, h4, h5, h6⟩ := act_sim orc a c σ.env (fun x _ => by rw [he]) hi
    simp only [tree, runCL_one, runC, emit, Spec.run]
    rw [← hs]
    exact ⟨h1, by rw [h2, h3], by rw [h4, he], h5, hm, h6⟩
  | .decl x, ds, bs, σ, c, outer, hok, he, hs, hi, hm, hb => by
    simp only [ok, Bool.and_eq_true, decide_eq_true_eq] at hok
    simp only [tree, runCL_one, runC, runP, emit, Spec.run, push_lt hok.2]
    refine ⟨rfl, by rw [hs]; rfl, by simp [he, hs], by simp [hs], ?_, ?_⟩
    · exact ⟨look_self _ _ _, hm.cons x _ hok.1⟩
    · intro d i
      simp only [upd]
      by_cases hd : d = c.sto.nc
      · simp [hd]
      · simp only [hd, if_false]; exact hi d i
  | .val x k, ds, bs, σ, c, outer, hok, he, hs, hi, hm, hb => by
    simp only [ok] at hok
    simp only [tree, runCL_one, runC, runP, emit, Spec.run]
    refine ⟨rfl, rfl, by simp [he, hs], by simp [hs], hm.cons x _ hok, ?_⟩
    intro d i
    simp only [upd]
    by_cases hd : d = c.sto.nc
    · simp [hd]
    · simp only [hd, if_false]; exact hi d i
  | .letMove y x, ds, bs, σ, c, outer, hok, he, hs, hi, hm, hb => by
    simp only [ok, Bool.and_eq_true, decide_eq_true_eq, bne_iff_ne] at hok
    obtain ⟨⟨hc, hne⟩, hlt⟩ := hok
    have hl : look ((y, c.sto.nc) :: c.env) x = look σ.env x := by
      rw [look_cons x y _ _ (fun e => hne e.symm), he]
    simp only [tree, runCL_one, runC, runP, emit, Spec.run, push_lt hlt]
    refine ⟨rfl, ?_, ?_, ?_, ?_, ?_⟩
    · simp only [get_congr c.sto hl]; rw [hs]; rfl
    · simp only [setFlag_env]; rw [he, hs]
    · simp only [setFlag_sto, get_congr c.sto hl, set_congr _ _ hl]; rw [hs]
    · exact ⟨look_self _ _ _, hm.cons y _ hc⟩
    · have h0 : Inv (⟨(y, c.sto.nc) :: c.env, ⟨upd c.sto.val c.sto.nc
          (c.sto.get ((y, c.sto.nc) :: c.env) x), c.sto.nc + 1, c.sto.no, c.sto.k⟩,
          upd c.flag c.sto.nc true⟩ : CSt) := by
        intro d i
        simp only [upd]
        by_cases hd : d = c.sto.nc
        · simp [hd]
        · simp only [hd, if_false]; exact hi d i
      exact h0.gone x
  | .assign x, ds, bs, σ, c, outer, hok, he, hs, hi, hm, hb => by simp [ok] at hok
  | .defer a, ds, bs, σ, c, outer, hok, he, hs, hi, hm, hb => by
    simp only [ok, decide_eq_true_eq] at hok
    simp only [tree, runCL_nil, emit, Spec.run, push_lt hok]
    exact ⟨rfl, rfl, he, hs, ⟨rfl, fun _ _ => rfl, hm⟩, hi⟩
  | .block ss, ds, bs, σ, c, outer, hok, he, hs, hi, hm, hb => by
    have h := simL ss ds bs ⟨σ.env, [], σ.sto⟩ c (σ.cl ++ outer) (by simpa [ok] using hok) he hs hi hm
      (clear_bound hb)
    obtain ⟨l, hl⟩ := emitL_ext ss ds bs
    rw [emit_block_stack]
    simp only [tree, runCL_one, runC, Spec.run]
    refine sim_of_scope ?_ hm
    rw [runCL_append]
    generalize Spec.runL orc n ss ⟨σ.env, [], σ.sto⟩ = r at h
    generalize runCL orc n (ofList (treeL ss ds bs)) c = q at h
    obtain ⟨o, t, τ⟩ := r
    obtain ⟨o', t', d⟩ := q
    obtain ⟨h1, h2⟩ := h
    simp only at h1
    subst h1
    cases o'
    · obtain ⟨g1, g2, g3, g4, g5⟩ := h2
      simp only at g1 g2 g3 g4 g5
      have hlen := g4.length
      have hlen2 := hm.length
      rw [hl] at g4 hlen
      simp only [List.length_append] at hlen hlen2
      have hm2 := g4.take l.length
      have e1 : τ.cl.length = l.length := by omega
      rw [List.take_left, ← e1, List.take_left] at hm2
      have hc := cl_sim orc n l τ.cl d (by rw [g2]; exact hm2) g5
      obtain ⟨k1, k2, k3, k4, k5⟩ := hc
      have hu : unw (emitL ss ds bs).2 ds.length = l.map Cl.stmt := by
        rw [hl]; simp [unw]
      simp only [hu, leave]
      refine ⟨k1, he, ?_, ?_, k5⟩
      · simp only [erase_append, g1, k2, g3]
      · simp only [k4, g3]
    · obtain ⟨b, bs', e, g1, g2, g3⟩ := h2
      rw [upto_append b _ _ (clear_bound hb b bs' e), clean_append] at g1 g2
      exact ⟨rfl, he, b, bs', e, by simpa [leave] using g1, g2, g3⟩
    · obtain ⟨b, bs', e, g1, g2, g3⟩ := h2
      rw [upto_append b _ _ (clear_bound hb b bs' e), clean_append] at g1 g2
      exact ⟨rfl, he, b, bs', e, by simpa [leave] using g1, g2, g3⟩
    · simp only at h2
      rw [clean_append] at h2
      exact ⟨rfl, he, by simpa [leave] using h2⟩
    · exact ⟨rfl, he, h2⟩
  | .ifS i t, ds, bs, σ, c, outer, hok, he, hs, hi, hm, hb => by
    have hst := emit_single (.ifS i t) ds bs hok rfl
    simp only [ok, Bool.and_eq_true] at hok
    have hB := body_sim orc n (sim t) ds bs σ.env (testS orc (some i) c).2.2 (σ.cl ++ outer) hok.2
      (single_block t ds bs hok.1) he (inv_test orc (some i) hi) hm (clear_bound hb)
    rw [hst]
    have hS : (testS orc (some i) c).2.2.sto = (testC orc i σ.sto).2.2 := by rw [← hs]; rfl
    have hT : (testS orc (some i) c).2.1 = (testC orc i σ.sto).2.1 := by rw [← hs]; rfl
    have hC : (testS orc (some i) c).1 = (testC orc i σ.sto).1 := by rw [← hs]; rfl
    simp only [tree, runCL_one, runC, Spec.run, hC, hT]
    by_cases ht : (testC orc i σ.sto).1 = true
    · simp only [ht]
      rw [hS] at hB
      exact sim_of_scope (simB_pre (testC orc i σ.sto).2.1 _ rfl hB) hm
    · simp only [ht]
      exact ⟨rfl, rfl, he, hS, hm, inv_test orc (some i) hi⟩
  | .ifElse i t e, ds, bs, σ, c, outer, hok, he, hs, hi, hm, hb => by
    have hst := emit_single (.ifElse i t e) ds bs hok rfl
    simp only [ok, Bool.and_eq_true] at hok
    have hB := body_sim orc n (sim t) ds bs σ.env (testS orc (some i) c).2.2 (σ.cl ++ outer) hok.1.1.2
      (single_block t ds bs hok.1.1.1) he (inv_test orc (some i) hi) hm (clear_bound hb)
    have hE := body_sim orc n (sim e) ds bs σ.env (testS orc (some i) c).2.2 (σ.cl ++ outer) hok.2
      hok.1.2 he (inv_test orc (some i) hi) hm (clear_bound hb)
    rw [hst]
    have hS : (testS orc (some i) c).2.2.sto = (testC orc i σ.sto).2.2 := by rw [← hs]; rfl
    have hT : (testS orc (some i) c).2.1 = (testC orc i σ.sto).2.1 := by rw [← hs]; rfl
    have hC : (testS orc (some i) c).1 = (testC orc i σ.sto).1 := by rw [← hs]; rfl
    simp only [tree, runCL_one, runC, Spec.run, hC, hT]
    by_cases ht : (testC orc i σ.sto).1 = true
    · simp only [ht]
      rw [hS] at hB
      exact sim_of_scope (simB_pre (testC orc i σ.sto).2.1 _ rfl hB) hm
    · simp only [ht]
      rw [hS] at hE
      exact sim_of_scope (simB_pre (testC orc i σ.sto).2.1 _ rfl hE) hm
  | .guard i t, ds, bs, σ, c, outer, hok, he, hs, hi, hm, hb => by
    have hst := emit_single (.guard i t) ds bs hok rfl
    simp only [ok, Bool.and_eq_true] at hok
    have hB := body_sim orc n (sim t) ds bs σ.env (testS orc (some i) c).2.2 (σ.cl ++ outer) hok.2
      hok.1 he (inv_test orc (some i) hi) hm (clear_bound hb)
    rw [hst]
    have hS : (testS orc (some i) c).2.2.sto = (testC orc i σ.sto).2.2 := by rw [← hs]; rfl
    have hT : (testS orc (some i) c).2.1 = (testC orc i σ.sto).2.1 := by rw [← hs]; rfl
    have hC : (testS orc (some i) c).1 = (testC orc i σ.sto).1 := by rw [← hs]; rfl
    simp only [tree, runCL_one, runC, Spec.run, hC, hT]
    by_cases ht : (testC orc i σ.sto).1 = true
    · simp only [ht]
      exact ⟨rfl, rfl, he, hS, hm, inv_test orc (some i) hi⟩
    · simp only [ht]
      rw [hS] at hB
      exact sim_of_scope (simB_pre (testC orc i σ.sto).2.1 _ rfl hB) hm
  | .loop i b, ds, bs, σ, c, outer, hok, he, hs, hi, hm, hb => by
    have hst := emit_single (.loop i b) ds bs hok rfl
    simp only [ok, Bool.and_eq_true] at hok
    rw [hst]
    simp only [tree, runCL_one, runC, Spec.run]
    refine sim_of_scope ?_ hm
    have hlen := hm.length
    rw [← hs]
    refine iter_sim orc (fun τ hτ hτi => ?_) n c he hi
    rw [← hlen]
    refine body_sim orc n (sim b) ds _ σ.env τ (σ.cl ++ outer) hok.2 hok.1 hτ hτi hm ?_
    intro b bs' e
    obtain ⟨rfl, rfl⟩ := List.cons.inj e
    omega
  | .doWhile b i, ds, bs, σ, c, outer, hok, he, hs, hi, hm, hb => by
    have hst := emit_single (.doWhile b i) ds bs hok rfl
    simp only [ok, Bool.and_eq_true] at hok
    rw [hst]
    simp only [tree, runCL_one, runC, Spec.run]
    refine sim_of_scope ?_ hm
    have hlen := hm.length
    rw [← hs]
    refine iterDo_sim orc (fun τ hτ hτi => ?_) n c he hi
    rw [← hlen]
    refine body_sim orc n (sim b) ds _ σ.env τ (σ.cl ++ outer) hok.2 hok.1 hτ hτi hm ?_
    intro b bs' e
    obtain ⟨rfl, rfl⟩ := List.cons.inj e
    omega
  | .brk, ds, bs, σ, c, outer, hok, he, hs, hi, hm, hb => by
    cases bs with
    | nil => simp [ok] at hok
    | cons b bs =>
      obtain ⟨h1, h2, h3, h4⟩ := exit_sim orc n ds (σ.cl ++ outer) b .brk .brk (fun _ => rfl) c
        (by rw [he]; exact hm) hi
      simp only [tree, Spec.run]
      rw [hs] at h2 h3
      exact ⟨h1, b, bs, rfl, by simpa using h2, h3, h4⟩
  | .cont, ds, bs, σ, c, outer, hok, he, hs, hi, hm, hb => by
    cases bs with
    | nil => simp [ok] at hok
    | cons b bs =>
      obtain ⟨h1, h2, h3, h4⟩ := exit_sim orc n ds (σ.cl ++ outer) b .cont .cont (fun _ => rfl) c
        (by rw [he]; exact hm) hi
      simp only [tree, Spec.run]
      rw [hs] at h2 h3
      exact ⟨h1, b, bs, rfl, by simpa using h2, h3, h4⟩
  | .brkL l, ds, bs, σ, c, outer, hok, he, hs, hi, hm, hb => by simp [ok] at hok
  | .ret, ds, bs, σ, c, outer, hok, he, hs, hi, hm, hb => by
    obtain ⟨h1, h2, h3, h4⟩ := exit_sim orc n ds (σ.cl ++ outer) 0 .ret .ret (fun _ => rfl) c
      (by rw [he]; exact hm) hi
    simp only [tree, Spec.run]
    rw [hs, upto_zero] at h2
    exact ⟨h1, by simpa using h2⟩
  | .retv a, ds, bs, σ, c, outer, hok, he, hs, hi, hm, hb => by
    obtain ⟨h1, h2, h3, h4, h5, h6⟩ := act_sim orc a c σ.env (fun x _ => by rw [he]) hi
    simp only [tree, Spec.run]
    split
    · obtain ⟨g1, g2, g3, g4⟩ := exit_sim orc n ds (σ.cl ++ outer) 0 .ret .ret (fun _ => rfl)
        (runP orc a.prim c).2.2 (by rw [h4, he]; exact hm) h6
      rw [upto_zero, h5] at g2
      rw [runCL_one]
      simp only [runC, ofList, runCL, h1]
      refine ⟨g1, ?_⟩
      simp only [erase_append, h2, h3, g2]
      rw [hs]
    · have hd : ds = [] := by
        cases ds <;> simp_all
      subst hd
      have hk : σ.cl ++ outer = [] := by
        have := hm.length
        simp only [List.length_nil] at this
        exact List.eq_nil_of_length_eq_zero this.symm
      simp only [runCL_one, runC]
      cases a with
      | use a xs =>
        refine ⟨rfl, ?_⟩
        simp only [hk, clean, runP, Spec.act, List.append_nil]
        rw [he, hs]; rfl
      | consume x =>
        refine ⟨rfl, ?_⟩
        simp only [hk, clean, runP, Spec.act, List.append_nil]
        rw [he, hs]; rfl
  | .retMove x, ds, bs, σ, c, outer, hok, he, hs, hi, hm, hb => by
    obtain ⟨g1, g2, g3, g4⟩ := exit_sim orc n ds (σ.cl ++ outer) 0 .ret .ret (fun _ => rfl)
      { c with sto := c.sto.set c.env x .gone } (by simpa [he] using hm) (hi.zero x)
    rw [upto_zero] at g2
    simp only [tree, Spec.run]
    rw [runCL_one]
    simp only [runC, ofList, runCL, runP]
    refine ⟨g1, ?_⟩
    simp only [erase_append, g2]
    rw [he, hs]
    rfl
  | .retSlice a, ds, bs, σ, c, outer, hok, he, hs, hi, hm, hb => by
    obtain ⟨h1, h2, h3, h4, h5, h6⟩ := act_sim orc a c σ.env (fun x _ => by rw [he]) hi
    simp only [ok, List.isEmpty_iff] at hok
    subst hok
    have hk : σ.cl ++ outer = [] := by
      have := hm.length
      simp only [List.length_nil] at this
      exact List.eq_nil_of_length_eq_zero this.symm
    simp only [tree, Spec.run]
    rw [runCL_one]
    have hr : ∀ τ, runP orc .ret τ = (.ret, [], τ) := fun _ => rfl
    simp only [runC, ofList, runCL, h1, hr]
    refine ⟨rfl, ?_⟩
    simp only [hk, clean, List.append_nil, h2, h3]
    rw [hs]
  | .attempt i, ds, bs, σ, c, outer, hok, he, hs, hi, hm, hb => by
    simp only [ok, List.isEmpty_iff] at hok
    subst hok
    have hk : σ.cl ++ outer = [] := by
      have := hm.length
      simp only [List.length_nil] at this
      exact List.eq_nil_of_length_eq_zero this.symm
    simp only [tree, Spec.run, runCL_one, runC, runP, emit]
    rw [hs]
    cases ht : (testC orc i σ.sto).1
    · refine ⟨rfl, ?_⟩
      simp only [Bool.false_eq_true, if_false, hk, clean, List.append_nil]
      rfl
    · exact ⟨rfl, rfl, he, rfl, hm, fun d j h => hi d j (by rw [hs]; exact h)⟩
theorem simL : ∀ (ss : Block) (ds : List Cl) (bs : List Nat) (σ : Spec.St) (c : CSt)
    (outer : List Clean),
    okL ss ds bs = true → c.env = σ.env → c.sto = σ.sto → Inv c →
    Match σ.env ds (σ.cl ++ outer) → Bound bs outer →
    Sim bs (emitL ss ds bs).2 outer (Spec.runL orc n ss σ) (runCL orc n (ofList (treeL ss ds bs)) c)
  | .nil, ds, bs, σ, c, outer, hok, he, hs, hi, hm, hb => ⟨rfl, rfl, he, hs, hm, hi⟩
  | .cons s ss, ds, bs, σ, c, outer, hok, he, hs, hi, hm, hb => by
    simp only [okL, Bool.and_eq_true] at hok
    have h := sim s ds bs σ c outer hok.1 he hs hi hm hb
    have ih := simL ss (emit s ds bs).2 bs (Spec.run orc n s σ).2.2
      (runCL orc n (ofList (tree s ds bs)) c).2.2 outer hok.2
    simp only [treeL, Spec.runL, emitL]
    rw [runCL_append]
    generalize Spec.run orc n s σ = r at h ih
    generalize runCL orc n (ofList (tree s ds bs)) c = q at h ih
    obtain ⟨o, t, τ⟩ := r
    obtain ⟨o', t', d⟩ := q
    obtain ⟨h1, h2⟩ := h
    simp only at h1
    subst h1
    cases o'
    · obtain ⟨g1, g2, g3, g4, g5⟩ := h2
      have ih := ih g2 g3 g5 g4 hb
      simp only at ih g1 ⊢
      generalize Spec.runL orc n ss τ = r at ih
      generalize runCL orc n (ofList (treeL ss (emit s ds bs).2 bs)) d = q at ih
      obtain ⟨o, u, τ'⟩ := r
      obtain ⟨o', u', d'⟩ := q
      obtain ⟨k1, k2⟩ := ih
      simp only at k1
      subst k1
      refine ⟨rfl, ?_⟩
      cases o' <;> simp only [erase_append, g1, List.append_assoc] at k2 ⊢
      · exact ⟨by rw [k2.1], k2.2⟩
      · obtain ⟨b, bs', e, k3, k4⟩ := k2
        exact ⟨b, bs', e, by rw [k3], k4⟩
      · obtain ⟨b, bs', e, k3, k4⟩ := k2
        exact ⟨b, bs', e, by rw [k3], k4⟩
      · rw [k2]
      · rw [k2]
    · exact ⟨rfl, h2⟩
    · exact ⟨rfl, h2⟩
    · exact ⟨rfl, h2⟩
    · exact ⟨rfl, h2⟩
end

end Verif.Defer
