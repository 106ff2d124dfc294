import Verif.IfExpr.Model

/-!
# What the C code of `if` in expressions does (C168)
-/

namespace Verif.IfExpr
open Spec

/-- A value lies in its type. -/
def Fits (v : Val) : Prop := wrap v.ty v.n = v.n

/-- All variables lie in their types. -/
def FitsAll (env : List (Nat × Val)) : Prop := ∀ p ∈ env, Fits p.2

theorem wrap_wrap (t : Ty) (n : Int) : wrap t (wrap t n) = wrap t n := by
  cases t <;> simp only [wrap, Ty.size] <;> omega

theorem fits_conv (t : Ty) (n : Int) : Fits (conv t n) := wrap_wrap t n

theorem conv_self {v : Val} (h : Fits v) : conv v.ty v.n = v := by
  cases v; simp only [conv]; unfold Fits at h; simp only at h; rw [h]

/-- The conversion to a type keeps the numbers of the type: it is the one of C. -/
theorem wrap_range (t : Ty) (n : Int) : -(t.size / 2) ≤ wrap t n ∧ wrap t n < t.size / 2 := by
  cases t <;> simp only [wrap, Ty.size] <;> omega

theorem wrap_mod (t : Ty) (n : Int) : ∃ k, wrap t n = n + k * t.size := by
  refine ⟨-((n + t.size / 2) / t.size), ?_⟩
  cases t <;> simp only [wrap, Ty.size] <;> omega

theorem lookup_tys (x : Nat) : ∀ (env : List (Nat × Val)), (tys env).lookup x = (env.lookup x).map (·.ty)
  | [] => rfl
  | (y, v) :: r => by
    simp only [tys, List.map_cons, List.lookup_cons]
    cases h : x == y with
    | true => rfl
    | false => exact lookup_tys x r

theorem lookup_mem {x : Nat} {v : Val} : ∀ {env : List (Nat × Val)}, env.lookup x = some v → ∃ y, (y, v) ∈ env
  | [], h => by cases h
  | (y, w) :: r, h => by
    rw [List.lookup_cons] at h
    cases hb : x == y with
    | true => rw [hb] at h; cases h; exact ⟨y, List.mem_cons_self⟩
    | false =>
      rw [hb] at h
      obtain ⟨z, hz⟩ := lookup_mem (env := r) h
      exact ⟨z, List.mem_cons_of_mem _ hz⟩

theorem set_tys {x : Nat} {n : Int} : ∀ {env env' : List (Nat × Val)}, set x n env = some env' → tys env' = tys env
  | [], _, h => by cases h
  | (y, v) :: r, env', h => by
    simp only [set] at h
    by_cases hy : y = x
    · rw [if_pos hy] at h; cases h; rfl
    · rw [if_neg hy] at h
      cases hr : set x n r with
      | none => rw [hr] at h; cases h
      | some r' =>
        rw [hr] at h; cases h
        have := set_tys hr
        simp only [tys, List.map_cons] at this ⊢
        rw [this]

theorem set_fits {x : Nat} {n : Int} : ∀ {env env' : List (Nat × Val)}, set x n env = some env' → FitsAll env → FitsAll env'
  | [], _, h, _ => by cases h
  | (y, v) :: r, env', h, hf => by
    simp only [set] at h
    by_cases hy : y = x
    · rw [if_pos hy] at h; cases h
      intro p hp
      rcases List.mem_cons.mp hp with rfl | hp
      · exact fits_conv _ _
      · exact hf p (List.mem_cons_of_mem _ hp)
    · rw [if_neg hy] at h
      cases hr : set x n r with
      | none => rw [hr] at h; cases h
      | some r' =>
        rw [hr] at h; cases h
        intro p hp
        rcases List.mem_cons.mp hp with rfl | hp
        · exact hf _ List.mem_cons_self
        · exact set_fits hr (fun q hq => hf q (List.mem_cons_of_mem _ hq)) p hp

theorem leave_tys {s : St} {G N : List (Nat × Ty)} (h : tys s.env = N ++ G) : tys (leave G.length s).env = G := by
  have hl : s.env.length = N.length + G.length := by
    have := congrArg List.length h
    simpa [tys] using this
  show (s.env.drop (s.env.length - G.length)).map _ = G
  rw [List.map_drop]
  have h' : (s.env.map fun x => (x.1, x.2.ty)) = N ++ G := h
  rw [h', hl, Nat.add_sub_cancel, List.drop_left]

theorem leave_fits {s : St} {k : Nat} (h : FitsAll s.env) : FitsAll (leave k s).env :=
  fun p hp => h p (List.mem_of_mem_drop hp)

/-- The variables behind statements: those before them and new ones. -/
theorem checks_suffix : ∀ (ss : Stmts) (G G' : List (Nat × Ty)), checks G ss = some G' → ∃ N, G' = N ++ G
  | .nil, G, G', h => by
    simp only [checks] at h; cases h; exact ⟨[], rfl⟩
  | .letS x e r, G, G', h => by
    simp only [checks] at h
    cases hc : check G e with
    | none => rw [hc] at h; cases h
    | some t =>
      rw [hc] at h
      obtain ⟨N, hN⟩ := checks_suffix r _ G' h
      exact ⟨N ++ [(x, t)], by rw [hN, List.append_assoc]; rfl⟩
  | .assign x e r, G, G', h => by
    simp only [checks] at h
    cases hc : check G e with
    | none => rw [hc] at h; cases h
    | some t =>
      rw [hc] at h
      cases hl : G.lookup x with
      | none => rw [hl] at h; cases h
      | some u => rw [hl] at h; exact checks_suffix r G G' h
  | .deferS e r, G, G', h => by
    simp only [checks] at h
    exact checks_suffix r G G' h
  | .exprS e r, G, G', h => by
    simp only [checks] at h
    cases hc : check G e with
    | none => rw [hc] at h; cases h
    | some t => rw [hc] at h; exact checks_suffix r G G' h

/-- The result of an expression: a value of its type, and the same variables. -/
def Typed (G : List (Nat × Ty)) (t : Ty) (o : Option (Val × St)) : Prop :=
  ∀ v s', o = some (v, s') → v.ty = t ∧ Fits v ∧ tys s'.env = G ∧ FitsAll s'.env

/-- The same of what follows statements. -/
def After {α : Type} (G : List (Nat × Ty)) (Q : α → Prop) (o : Option (α × St)) : Prop :=
  ∀ a s', o = some (a, s') → Q a ∧ tys s'.env = G ∧ FitsAll s'.env

/-- The variable `_ifval` keeps a value of its type. -/
theorem ifval {G : List (Nat × Ty)} {G' : List (Nat × Ty)} {t1 : Ty} {o oc : Option (Val × St)} {s : St} (ho : oc = o)
    (ha : After G' (fun v : Val => v.ty = t1 ∧ Fits v) o) (hN : ∃ N, G' = N ++ G) (hG : tys s.env = G) :
    (oc.bind fun p => some (conv t1 p.1.n, leave s.env.length p.2)) = (o.bind fun p => some (p.1, leave s.env.length p.2))
    ∧ Typed G t1 (o.bind fun p => some (p.1, leave s.env.length p.2)) := by
  subst ho
  cases oc with
  | none => exact ⟨rfl, fun v s' h => by cases h⟩
  | some p =>
    obtain ⟨⟨hty, hf⟩, htys, hfa⟩ := ha p.1 p.2 rfl
    constructor
    · show some (conv t1 p.1.n, _) = some (p.1, _)
      rw [← hty, conv_self hf]
    · intro v s' h
      obtain ⟨N, hN⟩ := hN
      have hlen : s.env.length = G.length := by rw [← hG]; simp [tys]
      have h : some (p.1, leave s.env.length p.2) = some (v, s') := h
      cases h
      exact ⟨hty, hf, by rw [hlen]; exact leave_tys (by rw [htys, hN]), leave_fits hfa⟩

mutual
/-- An expression that is checked has the same value and effects in C. -/
theorem expr_ok : ∀ (e : Expr) (G : List (Nat × Ty)) (t : Ty) (s : St), check G e = some t → tys s.env = G → FitsAll s.env →
    evalC e s = eval e s ∧ Typed G t (eval e s)
  | .lit t n, G, t', s, h, hG, hf => by
    simp only [check] at h; cases h
    simp only [evalC, eval]
    refine ⟨trivial, fun v s' hv => ?_⟩
    cases hv; exact ⟨rfl, fits_conv _ _, hG, hf⟩
  | .var x, G, t', s, h, hG, hf => by
    simp only [check] at h
    simp only [evalC, eval]
    refine ⟨trivial, fun v s' hv => ?_⟩
    rw [← hG, lookup_tys] at h
    cases hl : s.env.lookup x with
    | none => rw [hl] at h; cases h
    | some w =>
      rw [hl] at h hv; cases h; cases hv
      obtain ⟨y, hy⟩ := lookup_mem hl
      exact ⟨rfl, hf _ hy, hG, hf⟩
  | .add a b, G, t', s, h, hG, hf => by
    simp only [check] at h
    cases ha : check G a with
    | none => rw [ha] at h; cases h
    | some ta =>
      rw [ha] at h
      cases hb : check G b with
      | none => rw [hb] at h; cases h
      | some tb =>
        rw [hb] at h; cases h
        obtain ⟨ea, pa⟩ := expr_ok a G ta s ha hG hf
        simp only [evalC, eval]
        rw [ea]
        cases h1 : eval a s with
        | none => exact ⟨rfl, fun v s' hv => by cases hv⟩
        | some p =>
          obtain ⟨v1, s1⟩ := p
          obtain ⟨t1, _, g1, f1⟩ := pa v1 s1 h1
          obtain ⟨eb, pb⟩ := expr_ok b G tb s1 hb g1 f1
          simp only [Option.bind_eq_bind, Option.bind_some]
          rw [eb]
          cases h2 : eval b s1 with
          | none => exact ⟨rfl, fun v s' hv => by cases hv⟩
          | some q =>
            obtain ⟨v2, s2⟩ := q
            obtain ⟨t2, _, g2, f2⟩ := pb v2 s2 h2
            refine ⟨rfl, fun v s' hv => ?_⟩
            simp only [Option.bind_some, Option.some.injEq, Prod.mk.injEq] at hv
            obtain ⟨rfl, rfl⟩ := hv
            exact ⟨by rw [t1, t2]; rfl, fits_conv _ _, g2, f2⟩
  | .log a, G, t', s, h, hG, hf => by
    simp only [check] at h
    cases ha : check G a with
    | none => rw [ha] at h; cases h
    | some ta =>
      rw [ha] at h; cases h
      obtain ⟨ea, pa⟩ := expr_ok a G ta s ha hG hf
      simp only [evalC, eval]
      rw [ea]
      cases h1 : eval a s with
      | none => exact ⟨rfl, fun v s' hv => by cases hv⟩
      | some p =>
        obtain ⟨v1, s1⟩ := p
        obtain ⟨t1, _, g1, f1⟩ := pa v1 s1 h1
        refine ⟨rfl, fun v s' hv => ?_⟩
        simp only [Option.bind_eq_bind, Option.bind_some, Option.some.injEq, Prod.mk.injEq] at hv
        obtain ⟨rfl, rfl⟩ := hv
        exact ⟨rfl, fits_conv _ _, g1, f1⟩
  | .str, G, t', s, h, hG, hf => by
    simp only [check] at h; cases h
  | .ifE c ts t es e, G, t', s, h, hG, hf => by
    simp only [check] at h
    cases hc : check G c with
    | none => rw [hc] at h; cases h
    | some tc =>
    rw [hc] at h
    cases h1 : checks G ts with
    | none => rw [h1] at h; cases h
    | some G1 =>
    rw [h1] at h
    cases h2 : check G1 t with
    | none => simp only [Option.bind_eq_bind, Option.bind_some, h2] at h; cases h
    | some t1 =>
    cases h3 : checks G es with
    | none => simp only [Option.bind_eq_bind, Option.bind_some, h2, h3] at h; cases h
    | some G2 =>
    cases h4 : check G2 e with
    | none => simp only [Option.bind_eq_bind, Option.bind_some, h2, h3, h4] at h; cases h
    | some t2 =>
    simp only [Option.bind_eq_bind, Option.bind_some, h2, h3, h4] at h
    by_cases hq : typeOf G t = some t1 ∧ t1 = t2 ∧ noDefer ts = true ∧ noDefer es = true
    · rw [if_pos hq] at h
      cases h
      obtain ⟨q1, q2, q3, q4⟩ := hq
      rw [← q2] at h4
      obtain ⟨ec, pc⟩ := expr_ok c G tc s hc hG hf
      simp only [evalC, eval]
      rw [hG, q1, ec]
      cases hv : eval c s with
      | none => exact ⟨rfl, fun v s' hv => by cases hv⟩
      | some p =>
        obtain ⟨v, s1⟩ := p
        obtain ⟨_, _, g1, f1⟩ := pc v s1 hv
        simp only [Option.bind_eq_bind, Option.bind_some]
        by_cases hz : v.n ≠ 0
        · rw [if_pos hz, if_pos hz]
          obtain ⟨eb, pb⟩ := stmts_ok ts G G1 s1 h1 g1 f1 q3 (evalC t) (eval t) (fun v : Val => v.ty = t' ∧ Fits v) (fun s2 g2 f2 => by
            obtain ⟨et, pt⟩ := expr_ok t G1 t' s2 h2 g2 f2
            exact ⟨et, fun v s' hv => ⟨⟨(pt v s' hv).1, (pt v s' hv).2.1⟩, (pt v s' hv).2.2⟩⟩)
          exact ifval eb pb (checks_suffix ts G G1 h1) g1
        · rw [if_neg hz, if_neg hz]
          obtain ⟨eb, pb⟩ := stmts_ok es G G2 s1 h3 g1 f1 q4 (evalC e) (eval e) (fun v : Val => v.ty = t' ∧ Fits v) (fun s2 g2 f2 => by
            obtain ⟨et, pt⟩ := expr_ok e G2 t' s2 h4 g2 f2
            exact ⟨et, fun v s' hv => ⟨⟨(pt v s' hv).1, (pt v s' hv).2.1⟩, (pt v s' hv).2.2⟩⟩)
          exact ifval eb pb (checks_suffix es G G2 h3) g1
    · rw [if_neg hq] at h; cases h
/-- Statements without `defer`. -/
theorem stmts_ok {α : Type} : ∀ (ss : Stmts) (G G' : List (Nat × Ty)) (s : St), checks G ss = some G' → tys s.env = G → FitsAll s.env →
    noDefer ss = true → ∀ (kc k : St → Option (α × St)) (Q : α → Prop),
    (∀ s1, tys s1.env = G' → FitsAll s1.env → kc s1 = k s1 ∧ After G' Q (k s1)) →
    blockC ss kc s = block ss k s ∧ After G' Q (block ss k s)
  | .nil, G, G', s, h, hG, hf, _, kc, k, Q, hk => by
    simp only [checks] at h; cases h
    simp only [blockC, block]
    exact hk s hG hf
  | .letS x e r, G, G', s, h, hG, hf, hd, kc, k, Q, hk => by
    simp only [checks] at h
    simp only [noDefer] at hd
    cases hc : check G e with
    | none => rw [hc] at h; cases h
    | some t =>
      rw [hc] at h
      obtain ⟨ee, pe⟩ := expr_ok e G t s hc hG hf
      simp only [blockC, block]
      rw [ee]
      cases hv : eval e s with
      | none => exact ⟨rfl, fun v s' hv => by cases hv⟩
      | some p =>
        obtain ⟨v, s1⟩ := p
        obtain ⟨tv, fv, g1, f1⟩ := pe v s1 hv
        simp only [Option.bind_eq_bind, Option.bind_some]
        refine stmts_ok r ((x, t) :: G) G' _ h ?_ ?_ hd kc k Q hk
        · show (x, v.ty) :: tys s1.env = _
          rw [tv, g1]
        · intro p hp
          rcases List.mem_cons.mp hp with rfl | hp
          · exact fv
          · exact f1 p hp
  | .assign x e r, G, G', s, h, hG, hf, hd, kc, k, Q, hk => by
    simp only [checks] at h
    simp only [noDefer] at hd
    cases hc : check G e with
    | none => rw [hc] at h; cases h
    | some t =>
      rw [hc] at h
      cases hl : G.lookup x with
      | none => rw [hl] at h; cases h
      | some u =>
        rw [hl] at h
        obtain ⟨ee, pe⟩ := expr_ok e G t s hc hG hf
        simp only [blockC, block]
        rw [ee]
        cases hv : eval e s with
        | none => exact ⟨rfl, fun v s' hv => by cases hv⟩
        | some p =>
          obtain ⟨v, s1⟩ := p
          obtain ⟨tv, fv, g1, f1⟩ := pe v s1 hv
          simp only [Option.bind_eq_bind, Option.bind_some]
          cases hs : set x v.n s1.env with
          | none => exact ⟨rfl, fun v s' hv => by cases hv⟩
          | some env' =>
            exact stmts_ok r G G' _ h ((set_tys hs).trans g1) (set_fits hs f1) hd kc k Q hk
  | .deferS e r, G, G', s, h, hG, hf, hd, kc, k, Q, hk => by
    simp only [noDefer] at hd; cases hd
  | .exprS e r, G, G', s, h, hG, hf, hd, kc, k, Q, hk => by
    simp only [checks] at h
    simp only [noDefer] at hd
    cases hc : check G e with
    | none => rw [hc] at h; cases h
    | some t =>
      rw [hc] at h
      obtain ⟨ee, pe⟩ := expr_ok e G t s hc hG hf
      simp only [blockC, block]
      rw [ee]
      cases hv : eval e s with
      | none => exact ⟨rfl, fun v s' hv => by cases hv⟩
      | some p =>
        obtain ⟨v, s1⟩ := p
        obtain ⟨tv, fv, g1, f1⟩ := pe v s1 hv
        simp only [Option.bind_eq_bind, Option.bind_some]
        exact stmts_ok r G G' s1 h g1 f1 hd kc k Q hk
end

mutual
/-- A checked expression leaves nothing on the stack of `defer`. -/
theorem pending_nil : ∀ (e : Expr) (G : List (Nat × Ty)) (t : Ty), check G e = some t → pending e = []
  | .lit _ _, _, _, _ => by simp only [pending]
  | .var _, _, _, _ => by simp only [pending]
  | .add a b, G, t, h => by
    simp only [check] at h
    cases ha : check G a with
    | none => rw [ha] at h; cases h
    | some ta =>
      rw [ha] at h
      cases hb : check G b with
      | none => rw [hb] at h; cases h
      | some tb => simp only [pending, pending_nil a G ta ha, pending_nil b G tb hb, List.append_nil]
  | .log a, G, t, h => by
    simp only [check] at h
    cases ha : check G a with
    | none => rw [ha] at h; cases h
    | some ta => simp only [pending, pending_nil a G ta ha]
  | .str, G, t, h => by simp only [pending]
  | .ifE c ts t es e, G, t', h => by
    simp only [check] at h
    cases hc : check G c with
    | none => rw [hc] at h; cases h
    | some tc =>
    rw [hc] at h
    cases h1 : checks G ts with
    | none => rw [h1] at h; cases h
    | some G1 =>
    rw [h1] at h
    cases h2 : check G1 t with
    | none => simp only [Option.bind_eq_bind, Option.bind_some, h2] at h; cases h
    | some t1 =>
    cases h3 : checks G es with
    | none => simp only [Option.bind_eq_bind, Option.bind_some, h2, h3] at h; cases h
    | some G2 =>
    cases h4 : check G2 e with
    | none => simp only [Option.bind_eq_bind, Option.bind_some, h2, h3, h4] at h; cases h
    | some t2 =>
    simp only [Option.bind_eq_bind, Option.bind_some, h2, h3, h4] at h
    by_cases hq : typeOf G t = some t1 ∧ t1 = t2 ∧ noDefer ts = true ∧ noDefer es = true
    · simp only [pending, pending_nil c G tc hc, pending_nil t G1 t1 h2, pending_nil e G2 t2 h4, pendings_nil ts G G1 h1 hq.2.2.1,
        pendings_nil es G G2 h3 hq.2.2.2, List.append_nil]
    · rw [if_neg hq] at h; cases h
theorem pendings_nil : ∀ (ss : Stmts) (G G' : List (Nat × Ty)), checks G ss = some G' → noDefer ss = true → pendings ss = []
  | .nil, _, _, _, _ => by simp only [pendings]
  | .letS x e r, G, G', h, hd => by
    simp only [checks] at h
    simp only [noDefer] at hd
    cases hc : check G e with
    | none => rw [hc] at h; cases h
    | some t =>
      rw [hc] at h
      simp only [pendings, pending_nil e G t hc, pendings_nil r _ G' h hd, List.append_nil]
  | .assign x e r, G, G', h, hd => by
    simp only [checks] at h
    simp only [noDefer] at hd
    cases hc : check G e with
    | none => rw [hc] at h; cases h
    | some t =>
      rw [hc] at h
      cases hl : G.lookup x with
      | none => rw [hl] at h; cases h
      | some u =>
        rw [hl] at h
        simp only [pendings, pending_nil e G t hc, pendings_nil r _ G' h hd, List.append_nil]
  | .deferS e r, G, G', h, hd => by simp only [noDefer] at hd; cases hd
  | .exprS e r, G, G', h, hd => by
    simp only [checks] at h
    simp only [noDefer] at hd
    cases hc : check G e with
    | none => rw [hc] at h; cases h
    | some t =>
      rw [hc] at h
      simp only [pendings, pending_nil e G t hc, pendings_nil r _ G' h hd, List.append_nil]
end

/-- The rest of a function after its statements: what was deferred. -/
def undo (l : List Expr) (o : Option (Unit × St)) : Option St :=
  o.bind fun p => l.reverse.foldlM (fun s e => (evalC e s).map (·.2)) p.2

theorem undo_cons (e : Expr) (l : List Expr) (o : Option (Unit × St)) :
    undo (e :: l) o = (undo l o).bind fun s => (evalC e s).map (·.2) := by
  cases o with
  | none => rfl
  | some p =>
    simp only [undo, Option.bind_some, List.reverse_cons, List.foldlM_append, Option.bind_eq_bind]
    cases List.foldlM (fun s e => (evalC e s).map (·.2)) p.2 l.reverse with
    | none => rfl
    | some s =>
      simp only [Option.bind_some, List.foldlM_cons, List.foldlM_nil]
      cases evalC e s <;> rfl

/-- Statements of a function with `defer` among them. -/
theorem body_ok : ∀ (ss : Stmts) (G G' : List (Nat × Ty)) (s : St), checks G ss = some G' → tys s.env = G → FitsAll s.env →
    (∀ e ∈ deferred ss, (check G' e).isSome) →
    undo (pendings ss) (blockC ss (fun s => some ((), s)) s) = (block ss (fun s => some ((), s)) s).map (·.2)
    ∧ After G' (fun _ => True) (block ss (fun s => some ((), s)) s)
  | .nil, G, G', s, h, hG, hf, hd => by
    simp only [checks] at h; cases h
    simp only [blockC, block, pendings]
    exact ⟨rfl, fun a s' h => by cases h; exact ⟨trivial, hG, hf⟩⟩
  | .letS x e r, G, G', s, h, hG, hf, hd => by
    simp only [checks] at h
    simp only [deferred] at hd
    cases hc : check G e with
    | none => rw [hc] at h; cases h
    | some t =>
      rw [hc] at h
      obtain ⟨ee, pe⟩ := expr_ok e G t s hc hG hf
      simp only [blockC, block, pendings, pending_nil e G t hc, List.nil_append]
      rw [ee]
      cases hv : eval e s with
      | none => exact ⟨rfl, fun v s' hv => by cases hv⟩
      | some p =>
        obtain ⟨v, s1⟩ := p
        obtain ⟨tv, fv, g1, f1⟩ := pe v s1 hv
        simp only [Option.bind_eq_bind, Option.bind_some]
        refine body_ok r ((x, t) :: G) G' _ h ?_ ?_ hd
        · show (x, v.ty) :: tys s1.env = _
          rw [tv, g1]
        · intro p hp
          rcases List.mem_cons.mp hp with rfl | hp
          · exact fv
          · exact f1 p hp
  | .assign x e r, G, G', s, h, hG, hf, hd => by
    simp only [checks] at h
    simp only [deferred] at hd
    cases hc : check G e with
    | none => rw [hc] at h; cases h
    | some t =>
      rw [hc] at h
      cases hl : G.lookup x with
      | none => rw [hl] at h; cases h
      | some u =>
        rw [hl] at h
        obtain ⟨ee, pe⟩ := expr_ok e G t s hc hG hf
        simp only [blockC, block, pendings, pending_nil e G t hc, List.nil_append]
        rw [ee]
        cases hv : eval e s with
        | none => exact ⟨rfl, fun v s' hv => by cases hv⟩
        | some p =>
          obtain ⟨v, s1⟩ := p
          obtain ⟨tv, fv, g1, f1⟩ := pe v s1 hv
          simp only [Option.bind_eq_bind, Option.bind_some]
          cases hs : set x v.n s1.env with
          | none => exact ⟨rfl, fun v s' hv => by cases hv⟩
          | some env' => exact body_ok r G G' _ h ((set_tys hs).trans g1) (set_fits hs f1) hd
  | .deferS e r, G, G', s, h, hG, hf, hd => by
    simp only [checks] at h
    simp only [deferred] at hd
    obtain ⟨eb, pb⟩ := body_ok r G G' s h hG hf (fun e' he => hd e' (List.mem_cons_of_mem _ he))
    simp only [blockC, block, pendings]
    rw [undo_cons, eb]
    cases hb : block r (fun s => some ((), s)) s with
    | none => exact ⟨rfl, fun v s' hv => by cases hv⟩
    | some p =>
      obtain ⟨u, s1⟩ := p
      obtain ⟨_, g1, f1⟩ := pb u s1 hb
      cases hc : check G' e with
      | none =>
        have := hd e List.mem_cons_self
        rw [hc] at this; cases this
      | some t =>
        obtain ⟨ee, pe⟩ := expr_ok e G' t s1 hc g1 f1
        simp only [Option.map_some, Option.bind_eq_bind, Option.bind_some]
        rw [ee]
        cases hv : eval e s1 with
        | none => exact ⟨rfl, fun v s' hv => by cases hv⟩
        | some q =>
          obtain ⟨v, s2⟩ := q
          obtain ⟨_, _, g2, f2⟩ := pe v s2 hv
          refine ⟨rfl, fun a s' h => ?_⟩
          simp only [Option.bind_some, Option.some.injEq, Prod.mk.injEq] at h
          rw [← h.2]
          exact ⟨trivial, g2, f2⟩
  | .exprS e r, G, G', s, h, hG, hf, hd => by
    simp only [checks] at h
    simp only [deferred] at hd
    cases hc : check G e with
    | none => rw [hc] at h; cases h
    | some t =>
      rw [hc] at h
      obtain ⟨ee, pe⟩ := expr_ok e G t s hc hG hf
      simp only [blockC, block, pendings, pending_nil e G t hc, List.nil_append]
      rw [ee]
      cases hv : eval e s with
      | none => exact ⟨rfl, fun v s' hv => by cases hv⟩
      | some p =>
        obtain ⟨v, s1⟩ := p
        obtain ⟨tv, fv, g1, f1⟩ := pe v s1 hv
        simp only [Option.bind_eq_bind, Option.bind_some]
        exact body_ok r G G' s1 h g1 f1 hd

/-- **C168.** A function whose `if` expressions end both branches with the same type, without `defer` in them and without results that need variables of the branch, does
in C what it says: the same variables and the same output in the same order, with what the function deferred at its end, the last first. Missing: branches of different
types, with own variables in the result, with `defer`, with string literals (see the theorems named `_violated`). -/
theorem if_partial (b : Stmts) (s : St) {G' : List (Nat × Ty)} (hc : checks (tys s.env) b = some G') (hf : FitsAll s.env)
    (hd : ∀ e ∈ deferred b, (check G' e).isSome) : runC b s = run b s :=
  (body_ok b _ G' s hc rfl hf hd).1

/-- Checked programs do not get stuck: a checked expression has a value. -/
theorem lookup_some {x : Nat} {t : Ty} {env : List (Nat × Val)} (h : (tys env).lookup x = some t) : ∃ v, env.lookup x = some v := by
  rw [lookup_tys] at h
  cases hl : env.lookup x with
  | none => rw [hl] at h; cases h
  | some v => exact ⟨v, rfl⟩

theorem set_some {x : Nat} {n : Int} : ∀ {env : List (Nat × Val)} {v : Val}, env.lookup x = some v → ∃ env', set x n env = some env'
  | [], _, h => by cases h
  | (y, w) :: r, v, h => by
    simp only [set]
    by_cases hy : y = x
    · rw [if_pos hy]; exact ⟨_, rfl⟩
    · rw [if_neg hy]
      rw [List.lookup_cons] at h
      have hb : (x == y) = false := by simpa using fun h' => hy h'.symm
      rw [hb] at h
      obtain ⟨env', h'⟩ := set_some (n := n) (env := r) h
      rw [h']; exact ⟨_, rfl⟩

mutual
theorem expr_some : ∀ (e : Expr) (G : List (Nat × Ty)) (t : Ty) (s : St), check G e = some t → tys s.env = G → FitsAll s.env →
    (eval e s).isSome
  | .lit t n, G, t', s, h, hG, hf => by simp only [eval, Option.isSome_some]
  | .var x, G, t', s, h, hG, hf => by
    simp only [check] at h
    rw [← hG] at h
    obtain ⟨v, hv⟩ := lookup_some h
    simp only [eval, hv, Option.map_some, Option.isSome_some]
  | .add a b, G, t', s, h, hG, hf => by
    simp only [check] at h
    cases ha : check G a with
    | none => rw [ha] at h; cases h
    | some ta =>
      rw [ha] at h
      cases hb : check G b with
      | none => rw [hb] at h; cases h
      | some tb =>
        obtain ⟨p, hp⟩ := Option.isSome_iff_exists.mp (expr_some a G ta s ha hG hf)
        obtain ⟨_, _, g1, f1⟩ := (expr_ok a G ta s ha hG hf).2 p.1 p.2 hp
        obtain ⟨q, hq⟩ := Option.isSome_iff_exists.mp (expr_some b G tb p.2 hb g1 f1)
        simp only [eval, hp, Option.bind_eq_bind, Option.bind_some, hq, Option.isSome_some]
  | .log a, G, t', s, h, hG, hf => by
    simp only [check] at h
    cases ha : check G a with
    | none => rw [ha] at h; cases h
    | some ta =>
      obtain ⟨p, hp⟩ := Option.isSome_iff_exists.mp (expr_some a G ta s ha hG hf)
      simp only [eval, hp, Option.bind_eq_bind, Option.bind_some, Option.isSome_some]
  | .str, G, t', s, h, hG, hf => by simp only [check] at h; cases h
  | .ifE c ts t es e, G, t', s, h, hG, hf => by
    simp only [check] at h
    cases hc : check G c with
    | none => rw [hc] at h; cases h
    | some tc =>
    rw [hc] at h
    cases h1 : checks G ts with
    | none => rw [h1] at h; cases h
    | some G1 =>
    rw [h1] at h
    cases h2 : check G1 t with
    | none => simp only [Option.bind_eq_bind, Option.bind_some, h2] at h; cases h
    | some t1 =>
    cases h3 : checks G es with
    | none => simp only [Option.bind_eq_bind, Option.bind_some, h2, h3] at h; cases h
    | some G2 =>
    cases h4 : check G2 e with
    | none => simp only [Option.bind_eq_bind, Option.bind_some, h2, h3, h4] at h; cases h
    | some t2 =>
    simp only [Option.bind_eq_bind, Option.bind_some, h2, h3, h4] at h
    by_cases hq : typeOf G t = some t1 ∧ t1 = t2 ∧ noDefer ts = true ∧ noDefer es = true
    · obtain ⟨p, hp⟩ := Option.isSome_iff_exists.mp (expr_some c G tc s hc hG hf)
      obtain ⟨_, _, g1, f1⟩ := (expr_ok c G tc s hc hG hf).2 p.1 p.2 hp
      have b1 := stmts_some ts G G1 p.2 h1 g1 f1 hq.2.2.1 (eval t) (fun s1 g f => expr_some t G1 t1 s1 h2 g f)
      have b2 := stmts_some es G G2 p.2 h3 g1 f1 hq.2.2.2 (eval e) (fun s1 g f => expr_some e G2 t2 s1 h4 g f)
      obtain ⟨w1, hw1⟩ := Option.isSome_iff_exists.mp b1
      obtain ⟨w2, hw2⟩ := Option.isSome_iff_exists.mp b2
      simp only [eval, hp, Option.bind_eq_bind, Option.bind_some]
      by_cases hz : p.1.n ≠ 0
      · rw [if_pos hz, hw1]; rfl
      · rw [if_neg hz, hw2]; rfl
    · rw [if_neg hq] at h; cases h
theorem stmts_some {α : Type} : ∀ (ss : Stmts) (G G' : List (Nat × Ty)) (s : St), checks G ss = some G' → tys s.env = G → FitsAll s.env →
    noDefer ss = true → ∀ (k : St → Option (α × St)), (∀ s1, tys s1.env = G' → FitsAll s1.env → (k s1).isSome) → (block ss k s).isSome
  | .nil, G, G', s, h, hG, hf, _, k, hk => by
    simp only [checks] at h; cases h
    simp only [block]; exact hk s hG hf
  | .letS x e r, G, G', s, h, hG, hf, hd, k, hk => by
    simp only [checks] at h
    simp only [noDefer] at hd
    cases hc : check G e with
    | none => rw [hc] at h; cases h
    | some t =>
      rw [hc] at h
      obtain ⟨p, hp⟩ := Option.isSome_iff_exists.mp (expr_some e G t s hc hG hf)
      obtain ⟨tv, fv, g1, f1⟩ := (expr_ok e G t s hc hG hf).2 p.1 p.2 hp
      simp only [block, hp, Option.bind_eq_bind, Option.bind_some]
      refine stmts_some r ((x, t) :: G) G' _ h ?_ ?_ hd k hk
      · show (x, p.1.ty) :: tys p.2.env = _
        rw [tv, g1]
      · intro q hq
        rcases List.mem_cons.mp hq with rfl | hq
        · exact fv
        · exact f1 q hq
  | .assign x e r, G, G', s, h, hG, hf, hd, k, hk => by
    simp only [checks] at h
    simp only [noDefer] at hd
    cases hc : check G e with
    | none => rw [hc] at h; cases h
    | some t =>
      rw [hc] at h
      cases hl : G.lookup x with
      | none => rw [hl] at h; cases h
      | some u =>
        rw [hl] at h
        obtain ⟨p, hp⟩ := Option.isSome_iff_exists.mp (expr_some e G t s hc hG hf)
        obtain ⟨tv, fv, g1, f1⟩ := (expr_ok e G t s hc hG hf).2 p.1 p.2 hp
        obtain ⟨v, hv⟩ := lookup_some (by rw [g1]; exact hl : (tys p.2.env).lookup x = some u)
        obtain ⟨env', hs⟩ := set_some (n := p.1.n) hv
        simp only [block, hp, Option.bind_eq_bind, Option.bind_some, hs]
        exact stmts_some r G G' _ h ((set_tys hs).trans g1) (set_fits hs f1) hd k hk
  | .deferS e r, G, G', s, h, hG, hf, hd, k, hk => by simp only [noDefer] at hd; cases hd
  | .exprS e r, G, G', s, h, hG, hf, hd, k, hk => by
    simp only [checks] at h
    simp only [noDefer] at hd
    cases hc : check G e with
    | none => rw [hc] at h; cases h
    | some t =>
      rw [hc] at h
      obtain ⟨p, hp⟩ := Option.isSome_iff_exists.mp (expr_some e G t s hc hG hf)
      obtain ⟨tv, fv, g1, f1⟩ := (expr_ok e G t s hc hG hf).2 p.1 p.2 hp
      simp only [block, hp, Option.bind_eq_bind, Option.bind_some]
      exact stmts_some r G G' _ h g1 f1 hd k hk
end

/-- **C168.** The C code of a checked expression is accepted, evaluates without getting stuck, to a value of the type the checker gave it, and leaves the variables around in
place. -/
theorem value_partial (e : Expr) (t : Ty) (s : St) (hc : check (tys s.env) e = some t) (hf : FitsAll s.env) :
    ∃ v s', evalC e s = some (v, s') ∧ eval e s = some (v, s') ∧ v.ty = t ∧ Fits v ∧ tys s'.env = tys s.env := by
  obtain ⟨p, hp⟩ := Option.isSome_iff_exists.mp (expr_some e _ t s hc rfl hf)
  obtain ⟨e1, p1⟩ := expr_ok e _ t s hc rfl hf
  obtain ⟨h1, h2, h3, _⟩ := p1 p.1 p.2 hp
  exact ⟨p.1, p.2, e1.trans hp, hp, h1, h2, h3⟩

/-! ## a program that is checked -/

/-- `let x = 5; defer log(x); let y = if x { let z = x + 1; x = z; log(x) } else { if y0 { 1 } else { 2 } }; log(y)` in a function with a parameter `y0` (1); `x` is 2,
`z` is 3, `y` is 4. -/
def sample : Stmts :=
  .letS 2 (.lit .i32 5) (.deferS (.log (.var 2)) (.letS 4
    (.ifE (.var 2) (.letS 3 (.add (.var 2) (.lit .i32 1)) (.assign 2 (.var 3) .nil)) (.log (.var 2))
      .nil (.ifE (.var 1) .nil (.lit .i32 1) .nil (.lit .i32 2)))
    (.exprS (.log (.var 4)) .nil)))

/-- It meets the hypotheses of `if_partial`, for every value of its parameter. -/
theorem sample_fine (n : Int) : ∃ G', checks (tys [(1, conv .i16 n)]) sample = some G' ∧ FitsAll [(1, conv .i16 n)]
    ∧ ∀ e ∈ deferred sample, (check G' e).isSome := by
  refine ⟨[(4, .i32), (2, .i32), (1, .i16)], rfl, ?_, ?_⟩
  · intro p hp
    rcases List.mem_singleton.mp hp with rfl
    exact fits_conv _ _
  · intro e he
    rcases List.mem_singleton.mp he with rfl
    rfl

/-- What it prints. -/
theorem sample_out : (run sample ⟨[(1, ⟨.i16, 7⟩)], []⟩).map (·.out) = some [6, 6, 6]
    ∧ (runC sample ⟨[(1, ⟨.i16, 7⟩)], []⟩).map (·.out) = some [6, 6, 6] := by decide +kernel

/-! ## where the C code is wrong -/

/-- The value of the second branch is converted to the type of the first: `if c { small } else { n }` with `small` of 8 bits is wrong for every `n` that 8 bits do not
hold. -/
theorem second_violated (n : Int) (s : St) (hn : wrap .i32 n = n) (hw : ¬ (-128 ≤ n ∧ n < 128)) :
    ∃ v w s', eval (.ifE (.lit .i32 0) .nil (.lit .i8 1) .nil (.lit .i32 n)) s = some (v, s') ∧ v.n = n
    ∧ evalC (.ifE (.lit .i32 0) .nil (.lit .i8 1) .nil (.lit .i32 n)) s = some (w, s') ∧ w.n ≠ n := by
  have hl : leave s.env.length s = s := by
    show { s with env := s.env.drop (s.env.length - s.env.length) } = s
    rw [Nat.sub_self]; rfl
  refine ⟨conv .i32 n, conv .i8 (conv .i32 n).n, s, ?_, hn, ?_, ?_⟩
  · simp only [eval, block, Option.bind_eq_bind, Option.bind_some]
    rw [if_neg (by decide)]
    simp only [hl]
  · simp only [evalC, blockC, typeOf, Option.bind_eq_bind, Option.bind_some]
    rw [if_neg (by decide)]
    simp only [hl]
  · intro h
    have h : wrap .i8 (wrap .i32 n) = n := h
    rw [hn] at h
    have := wrap_range .i8 n
    rw [h] at this
    simp only [Ty.size] at this
    omega

/-- A branch that ends with a variable of its own is not C, if no variable around has the name. -/
theorem own_variable_violated (e : Expr) (x : Nat) (v : Val) (s s1 : St) (hx : s.env.lookup x = none) (he : eval e s = some (v, s1)) (d : Expr) :
    eval (.ifE (.lit .i32 1) (.letS x e .nil) (.var x) .nil d) s = some (v, leave s.env.length { s1 with env := (x, v) :: s1.env })
    ∧ evalC (.ifE (.lit .i32 1) (.letS x e .nil) (.var x) .nil d) s = none := by
  constructor
  · simp only [eval, block, Option.bind_eq_bind, Option.bind_some]
    rw [if_pos (by decide), he]
    simp only [Option.bind_some, List.lookup_cons, BEq.rfl, Option.map_some]
  · have ht : typeOf (tys s.env) (.var x) = none := by
      simp only [typeOf]; rw [lookup_tys, hx]; rfl
    simp only [evalC, ht, Option.bind_eq_bind, Option.bind_none]

/-- If a variable around has the name, the value is converted to the type of that one: `let x = (8 bits) 1; if 1 { let x = 300; x } else { 0 }` is 44. -/
theorem shadowed_violated :
    (eval (.ifE (.lit .i32 1) (.letS 0 (.lit .i32 300) .nil) (.var 0) .nil (.lit .i32 0)) ⟨[(0, ⟨.i8, 1⟩)], []⟩).map (·.1.n) = some 300
    ∧ (evalC (.ifE (.lit .i32 1) (.letS 0 (.lit .i32 300) .nil) (.var 0) .nil (.lit .i32 0)) ⟨[(0, ⟨.i8, 1⟩)], []⟩).map (·.1.n) = some 44 := by
  decide +kernel

/-- What a branch defers is done at the end of the function, taken or not: `let y = if c { defer log(n); 1 } else { 2 }` with `c` zero prints `n`. -/
theorem defer_violated (n : Int) (s : St) :
    (run (.letS 0 (.ifE (.lit .i32 0) (.deferS (.log (.lit .i32 n)) .nil) (.lit .i32 1) .nil (.lit .i32 2)) .nil) s).map (·.out) = some s.out
    ∧ (runC (.letS 0 (.ifE (.lit .i32 0) (.deferS (.log (.lit .i32 n)) .nil) (.lit .i32 1) .nil (.lit .i32 2)) .nil) s).map (·.out)
      = some (s.out ++ [wrap .i32 n]) := by
  constructor
  · simp only [run, eval, block, Option.bind_eq_bind, Option.bind_some]
    rw [if_neg (by decide)]
    rfl
  · simp only [runC, evalC, blockC, typeOf, pendings, pending, Option.bind_eq_bind, Option.bind_some, List.nil_append, List.append_nil]
    rw [if_neg (by decide)]
    simp only [Option.bind_some, List.reverse_cons, List.reverse_nil, List.nil_append, List.foldlM_cons, List.foldlM_nil, evalC, Option.map_some,
      Option.bind_eq_bind]
    show some (s.out ++ [wrap .i32 (wrap .i32 n)]) = _
    rw [wrap_wrap]

/-- Both branches' deferred expressions are done, whichever branch is taken, those of the second branch first. -/
theorem defer_both_violated (c m n : Int) (s : St) :
    (runC (.letS 0 (.ifE (.lit .i32 c) (.deferS (.log (.lit .i32 m)) .nil) (.lit .i32 1) (.deferS (.log (.lit .i32 n)) .nil) (.lit .i32 2)) .nil) s).map
      (·.out) = some (s.out ++ [wrap .i32 n, wrap .i32 m]) := by
  simp only [runC, evalC, blockC, typeOf, pendings, pending, Option.bind_eq_bind, Option.bind_some, List.nil_append, List.append_nil]
  split
  · simp only [Option.bind_some, List.cons_append, List.nil_append, List.reverse_cons, List.reverse_nil, List.foldlM_cons, List.foldlM_nil, evalC,
      Option.map_some, Option.bind_eq_bind]
    show some ((s.out ++ [wrap .i32 (wrap .i32 n)]) ++ [wrap .i32 (wrap .i32 m)]) = _
    rw [wrap_wrap, wrap_wrap, List.append_assoc]; rfl
  · simp only [Option.bind_some, List.cons_append, List.nil_append, List.reverse_cons, List.reverse_nil, List.foldlM_cons, List.foldlM_nil, evalC,
      Option.map_some, Option.bind_eq_bind]
    show some ((s.out ++ [wrap .i32 (wrap .i32 n)]) ++ [wrap .i32 (wrap .i32 m)]) = _
    rw [wrap_wrap, wrap_wrap, List.append_assoc]; rfl

/-- What is deferred in a branch at the end of another one is done twice: `if c { if d { defer log(7); 1 } else { 2 } } else { 3 }`. -/
theorem twice_violated :
    (run (.exprS (.ifE (.lit .i32 1) .nil (.ifE (.lit .i32 1) (.deferS (.log (.lit .i32 7)) .nil) (.lit .i32 1) .nil (.lit .i32 2)) .nil (.lit .i32 3)) .nil)
      ⟨[], []⟩).map (·.out) = some [7]
    ∧ (runC (.exprS (.ifE (.lit .i32 1) .nil (.ifE (.lit .i32 1) (.deferS (.log (.lit .i32 7)) .nil) (.lit .i32 1) .nil (.lit .i32 2)) .nil (.lit .i32 3)) .nil)
      ⟨[], []⟩).map (·.out) = some [7, 7] := by
  decide +kernel

/-- A first branch that ends with a string literal is not C. -/
theorem string_violated (c : Expr) (ts es : Stmts) (e : Expr) (s : St) : evalC (.ifE c ts .str es e) s = none := by
  simp only [evalC, typeOf, Option.bind_eq_bind, Option.bind_none]

end Verif.IfExpr
