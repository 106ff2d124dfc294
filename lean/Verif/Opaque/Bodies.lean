import Verif.Opaque.Lemmas

/-! # Opaque types: bodies and programs -/

namespace Verif.Opaque
open Spec

/-- The body of a function is in order. -/
structure BodyOk (q : Ty → Prop) (V W : World) (Γ : List (String × Option Ty)) (body : List Stmt) :
    Prop where
  ok : ∀ Δ s, At W Γ body Δ s → Ok q V W Δ (exprOf s)
  nosplit : ∀ Δ s, At W Γ body Δ s → ∀ ns e, s ≠ .split ns e
  lets : ∀ Δ s, At W Γ body Δ s → ∀ x T e, s = .bind x (some T) e → q T

theorem BodyOk.tail {q V W Γ s r} (h : BodyOk q V W Γ (s :: r)) : BodyOk q V W (after W Γ s) r :=
  ⟨fun Δ s hs => h.ok Δ s (.later hs), fun Δ s hs => h.nosplit Δ s (.later hs),
    fun Δ s hs => h.lets Δ s (.later hs)⟩

theorem holds_after {q : Ty → Prop} {V W : World} {Γ : List (String × Option Ty)} {s : Stmt}
    {r : List Stmt} (H : Holds q W Γ) (B : BodyOk q V W Γ (s :: r))
    (T : ∀ t, typ W Γ (exprOf s) = some t → q t) : Holds q W (after W Γ s) := by
  refine ⟨H.fields, H.rets, ?_⟩
  cases s with
  | bind x U e =>
    intro p hp t ht
    simp only [after, List.mem_cons] at hp
    rcases hp with rfl | hp
    · cases U with
      | none => simp at ht; exact T t ht
      | some U =>
        simp at ht
        exact ht ▸ B.lets Γ _ (.here _ _ _) x U e rfl
    · exact H.vars p hp t ht
  | split ns e => exact absurd rfl (B.nosplit Γ _ (.here _ _ _) ns e)
  | expr e => exact H.vars
  | ret e => exact H.vars

/-- An accepted statement: its expression is accepted, the type written fits the one found, and the
parser goes on with the real types of the variables. -/
theorem body_step {E : Env} {V W : World} {Γ : List (String × Option Ty)} (S : Same E V)
    (H : Holds Plain W Γ) (f : String) {s : Stmt} {r : List Stmt} (B : BodyOk Plain V W Γ (s :: r)) :
    checkBody E f Γ (s :: r) = true ↔
      (check E f Γ (exprOf s)).isSome ∧
      (∀ x T e t, s = .bind x (some T) e → typ W Γ e = some t → fits f T t = true) ∧
      checkBody E f (after W Γ s) r = true := by
  have ok := B.ok Γ s (.here _ _ _)
  cases s with
  | bind x U e =>
    simp only [checkBody, exprOf, after] at ok ⊢
    cases hc : check E f Γ e with
    | none => simp
    | some t =>
      have ht := check_typ S H f e ok t hc
      cases U with
      | none => simp [ht]
      | some U =>
        cases t with
        | none =>
          simp only [Option.isSome_some, true_and]
          refine ⟨fun h => ⟨?_, h⟩, fun h => h.2⟩
          intro x' T' e' t' he ht'
          cases he
          rw [← ht] at ht'
          cases ht'
        | some t =>
          simp only [← ht, Option.isSome_some, true_and, Bool.and_eq_true]
          constructor
          · rintro ⟨h1, h2⟩
            refine ⟨?_, h2⟩
            intro x' T' e' t' he ht'
            cases he
            rw [← ht] at ht'
            cases ht'
            exact h1
          · rintro ⟨h1, h2⟩
            exact ⟨h1 x U e t rfl ht.symm, h2⟩
  | split ns e => exact absurd rfl (B.nosplit Γ _ (.here _ _ _) ns e)
  | expr e =>
    simp only [checkBody, exprOf, after]
    cases hc : check E f Γ e <;> simp
  | ret e =>
    simp only [checkBody, exprOf, after]
    cases hc : check E f Γ e <;> simp

/-- A body is accepted exactly if each of its statements is, where it stands. -/
theorem body_at {E : Env} {V W : World} (S : Same E V) (f : String) (body : List Stmt) :
    ∀ Γ, Holds Plain W Γ → BodyOk Plain V W Γ body →
    (checkBody E f Γ body = true ↔ ∀ Δ s, At W Γ body Δ s →
      (check E f Δ (exprOf s)).isSome ∧
      ∀ x T e t, s = .bind x (some T) e → typ W Δ e = some t → fits f T t = true) := by
  induction body with
  | nil =>
    intro Γ _ _
    simp only [checkBody, true_iff]
    intro Δ s h; cases h
  | cons s r ih =>
    intro Γ H B
    have H' := holds_after H B (fun t ht => typ_plain H (B.ok Γ s (.here _ _ _)) ht)
    rw [body_step S H f B, ih _ H' B.tail]
    constructor
    · rintro ⟨h1, h2, h3⟩ Δ s' h
      cases h with
      | here => exact ⟨h1, h2⟩
      | later h => exact h3 Δ s' h
    · intro h
      exact ⟨(h Γ s (.here _ _ _)).1, (h Γ s (.here _ _ _)).2, fun Δ s' h' => h Δ s' (.later h')⟩

theorem holds_at {q : Ty → Prop} (T : ∀ {V W Γ e}, Holds q W Γ → Ok q V W Γ e → ∀ t,
      typ W Γ e = some t → q t) {V W : World} {Γ Δ : List (String × Option Ty)} {body : List Stmt}
    {s : Stmt} (h : At W Γ body Δ s) : Holds q W Γ → BodyOk q V W Γ body → Holds q W Δ := by
  induction h with
  | here => exact fun H _ => H
  | later h ih =>
    intro H B
    exact ih (holds_after H B (T H (B.ok _ _ (.here _ _ _)))) B.tail

/-! ## Programs -/

/-- The tables after some declarations. -/
def envOf (E : Env) (P : Program) : Env := P.foldl (fun E p => declare E p.1 p.2) E

theorem accepts_iff (P : Program) : ∀ E, accepts E P = true ↔
    ∀ pre f n ps r body post, P = pre ++ (f, .fn n ps r body) :: post →
      checkBody (envOf E (pre ++ [(f, .fn n ps r body)])) f (start ps) body = true := by
  induction P with
  | nil => intro E; simp [accepts]
  | cons p P ih =>
    intro E
    obtain ⟨g, d⟩ := p
    simp only [accepts, Bool.and_eq_true, ih]
    constructor
    · rintro ⟨h1, h2⟩ pre f n ps r body post e
      cases pre with
      | nil =>
        simp only [List.nil_append, List.cons.injEq, Prod.mk.injEq] at e
        obtain ⟨⟨rfl, rfl⟩, rfl⟩ := e
        exact h1
      | cons p pre =>
        simp only [List.cons_append, List.cons.injEq] at e
        obtain ⟨rfl, rfl⟩ := e
        exact h2 pre f n ps r body post rfl
    · intro h
      constructor
      · cases d with
        | fn n ps r body => exact h [] g n ps r body P rfl
        | _ => rfl
      · intro pre f n ps r body post e
        have := h ((g, d) :: pre) f n ps r body post (by rw [e]; rfl)
        exact this

/-- The structs entered, newest first. -/
def entered : String × Decl → Option SDef
  | (f, .struct n o fs) => some ⟨n, o, some f, fs⟩
  | (_, .inst _ n fs) => some ⟨n, false, none, fs⟩
  | _ => none

theorem envOf_structs (P : Program) : ∀ E,
    (envOf E P).structs = P.reverse.filterMap entered ++ E.structs := by
  induction P with
  | nil => intro E; simp [envOf]
  | cons p P ih =>
    intro E
    have : envOf E (p :: P) = envOf (declare E p.1 p.2) P := rfl
    rw [this, ih]
    obtain ⟨f, d⟩ := p
    cases d <;> simp [declare, entered, List.filterMap_append]

theorem envOf_funs (P : Program) : ∀ E,
    (envOf E P).funs = P.reverse.filterMap fun? ++ E.funs := by
  induction P with
  | nil => intro E; simp [envOf]
  | cons p P ih =>
    intro E
    have : envOf E (p :: P) = envOf (declare E p.1 p.2) P := rfl
    rw [this, ih]
    obtain ⟨f, d⟩ := p
    cases d <;> simp [declare, fun?, List.filterMap_append]

/-- Without opaque templates both sides agree on each declaration. -/
theorem entered_eq (P : Program) (h : NoOpaqueTemplate P) (p : String × Decl) :
    (entered p).map (fun d => (d.name, key d)) = (struct? P p).map (fun d => (d.name, key d)) := by
  obtain ⟨f, d⟩ := p
  cases d with
  | struct n o fs => rfl
  | template n o => rfl
  | fn => rfl
  | inst t n fs =>
    simp only [entered, struct?]
    split
    · rename_i g m o e
      have hm := List.mem_of_find?_eq_some e
      have := h _ _ _ hm
      subst this
      simp [key]
    · simp

theorem find_map_key (g h : String × Decl → Option SDef)
    (e : ∀ p, (g p).map (fun d => (d.name, key d)) = (h p).map (fun d => (d.name, key d)))
    (n : String) (l : Program) :
    ((l.filterMap g).find? (fun d => d.name == n)).map key =
      ((l.filterMap h).find? (fun d => d.name == n)).map key := by
  induction l with
  | nil => rfl
  | cons p l ih =>
    have hp := e p
    simp only [List.filterMap_cons]
    cases a : g p <;> cases b : h p <;> rw [a, b] at hp <;> simp only [Option.map_none, Option.map_some,
      Option.some.injEq, Prod.mk.injEq, reduceCtorEq] at hp ⊢
    · exact ih
    · simp only [List.find?_cons, hp.1]
      split
      · simp [hp.2]
      · exact ih

theorem same_world (P : Program) (h : NoOpaqueTemplate P) : Same (envOf ⟨[], []⟩ P) (world P) := by
  refine ⟨fun n => ?_, ?_⟩
  · rw [envOf_structs]
    simp only [findStruct, world, List.append_nil]
    exact find_map_key _ _ (entered_eq P h) n _
  · rw [envOf_funs]; simp [world]

theorem NoOpaqueTemplate.left {P Q : Program} (h : NoOpaqueTemplate (P ++ Q)) : NoOpaqueTemplate P :=
  fun f n o hm => h f n o (List.mem_append_left _ hm)

/-- All types of the world and of the parameters satisfy what all types of the program do. -/
theorem holds_world {q : Ty → Prop} {P : Program} (h : AllTypes q P) {f n ps r body}
    (hf : (f, .fn n ps r body) ∈ P) : Holds q (world P) (start ps) := by
  refine ⟨?_, ?_, ?_⟩
  · intro d hd x hx
    simp only [world, List.mem_filterMap, List.mem_reverse] at hd
    obtain ⟨⟨g, c⟩, hp, hs⟩ := hd
    have := h _ hp
    cases c with
    | struct m o fs => simp [struct?] at hs; subst hs; exact this x hx
    | template m o => simp [struct?] at hs
    | fn => simp [struct?] at hs
    | inst t m fs =>
      simp only [struct?] at hs
      split at hs <;> simp at hs <;> subst hs <;> exact this x hx
  · intro s hs
    simp only [world, List.mem_filterMap, List.mem_reverse] at hs
    obtain ⟨⟨g, c⟩, hp, he⟩ := hs
    have := h _ hp
    cases c with
    | fn m ps' r' b => simp [fun?] at he; subst he; exact this.2.1
    | _ => simp [fun?] at he
  · intro p hp T hT
    simp only [start, List.mem_map] at hp
    obtain ⟨x, hx, rfl⟩ := hp
    cases hT
    exact (h _ hf).1 x hx

theorem at_mem {W : World} {Γ Δ : List (String × Option Ty)} {body : List Stmt} {s : Stmt}
    (h : At W Γ body Δ s) : s ∈ body := by
  induction h with
  | here => exact List.mem_cons_self
  | later _ ih => exact List.mem_cons_of_mem _ ih

theorem bodyOk {q : Ty → Prop} {P : Program} (h : AllTypes q P) {f n ps r body} {V : World}
    (hf : (f, .fn n ps r body) ∈ P) (t : Tidy V (world P) (start ps) body) :
    BodyOk q V (world P) (start ps) body := by
  have ha := (h _ hf).2.2
  refine ⟨fun Δ s hs => ⟨fun a => (t Δ s hs).1 a, fun T a hw => (ha s (at_mem hs)).2 T a hw⟩,
    fun Δ s hs => (t Δ s hs).2, fun Δ s hs x T e he => (ha s (at_mem hs)).1 x T e he⟩

/-! ## Occurrences, listed -/

/-- All that occurs in an expression. -/
def subs : Expr → List Expr
  | .call g a => .call g a :: subs a
  | .mem e x => .mem e x :: subs e
  | .mcall e m a => .mcall e m a :: (subs e ++ subs a)
  | .addr e => .addr e :: subs e
  | .deref e => .deref e :: subs e
  | .idx e i => .idx e i :: (subs e ++ subs i)
  | .lit n fs => .lit n fs :: subs fs
  | .cast t e => .cast t e :: subs e
  | .bin c a b => .bin c a b :: (subs a ++ subs b)
  | .cons l e r => .cons l e r :: (subs e ++ subs r)
  | e => [e]

theorem subs_self (e : Expr) : e ∈ subs e := by
  cases e <;> simp [subs]

theorem subs_part {a b e : Expr} (p : Part b e) (h : a ∈ subs b) : a ∈ subs e := by
  cases p <;> simp [subs, h]

theorem within_subs {a e : Expr} (h : Within a e) : a ∈ subs e := by
  have : ∀ {b c : Expr}, Within b c → ∀ x, x ∈ subs b → x ∈ subs c := by
    intro b c h
    induction h with
    | refl => exact fun _ h => h
    | step _ p ih => exact fun x hx => subs_part p (ih x hx)
  exact this h a (subs_self a)

end Verif.Opaque
