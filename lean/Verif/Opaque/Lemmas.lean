import Verif.Opaque.Model

/-! # Opaque types: the parser's types and the real ones -/

namespace Verif.Opaque
open Spec

/-! ## Types -/

theorem strip_plain_struct {t : Ty} (h : Plain t) (n : String) : strip t = .struct n ↔ t = .struct n := by
  cases t <;> simp_all [strip, Plain]
  rcases h with h | h | h | h <;> subst h <;> simp [strip]

theorem target_plain {t : Ty} (h : Plain t) : target t = nameOf t := by
  cases t with
  | ptr t =>
    simp only [target, strip]
    cases t with
    | alias n f t => rcases h with h | h | h | h <;> subst h <;> simp [strip, nameOf]
    | _ => simp [strip, nameOf]
  | alias n f t => rcases h with h | h | h | h <;> subst h <;> simp [target, strip, nameOf]
  | _ => simp [target, strip, nameOf]

theorem lookup_mem {α : Type} (l : List (String × α)) (x : String) (a : α) (h : l.lookup x = some a) :
    (x, a) ∈ l := by
  induction l with
  | nil => simp at h
  | cons p l ih =>
    obtain ⟨y, b⟩ := p
    simp only [List.lookup_cons] at h
    split at h
    · rename_i e
      have e := eq_of_beq e
      cases h; subst e; exact List.mem_cons_self
    · exact List.mem_cons_of_mem _ (ih h)

theorem typeEq_refl (t : Ty) : typeEq t t = true := by
  induction t with
  | struct n => simp [typeEq]
  | alias n f t => simp [typeEq]
  | ptr t ih => simp [typeEq, ih]
  | arr k t ih => simp [typeEq, ih]
  | _ => simp [typeEq]

/-! ## The tables -/

/-- What of a struct matters to the tests: its file only if it is opaque. -/
def key (d : SDef) : Bool × Option String × List (String × Ty) :=
  (d.opaq, if d.opaq then d.file else none, d.fields)

/-- The parser's tables say what the world so far says. -/
structure Same (E : Env) (V : World) : Prop where
  structs : ∀ n, (findStruct E.structs n).map key = (V.structs.find? (fun d => d.name == n)).map key
  funs : E.funs = V.funs

/-- Everything in the world, and all variables, have types with `q`. -/
structure Holds (q : Ty → Prop) (W : World) (Γ : List (String × Option Ty)) : Prop where
  fields : ∀ d ∈ W.structs, ∀ x ∈ d.fields, q x.2
  rets : ∀ s ∈ W.funs, q s.ret
  vars : ∀ p ∈ Γ, ∀ T, p.2 = some T → q T

/-- An expression is in order. -/
structure Ok (q : Ty → Prop) (V W : World) (Γ : List (String × Option Ty)) (e : Expr) : Prop where
  known : ∀ a, Within a e → Known V W Γ a
  casts : ∀ t a, Within (.cast t a) e → q t

theorem Ok.part {q V W Γ a e} (h : Ok q V W Γ e) (p : Part a e) : Ok q V W Γ a :=
  ⟨fun b hb => h.known b (.step hb p), fun t b hb => h.casts t b (.step hb p)⟩

theorem field_mem {W : World} {n x : String} {T : Ty} (h : field W n x = some T) :
    ∃ d ∈ W.structs, (x, T) ∈ d.fields := by
  simp only [field, Option.bind_eq_some_iff] at h
  obtain ⟨d, hd, h⟩ := h
  exact ⟨d, List.mem_of_find?_eq_some hd, lookup_mem _ _ _ h⟩

/-- The real types have `q` if everything declared does. -/
theorem typ_holds (q : Ty → Prop) (q1 : q .int) (q2 : q .str) (qs : ∀ n, q (.struct n))
    (qp : ∀ t, q (.ptr t) ↔ q t) (qa : ∀ k t, q (.arr k t) ↔ q t)
    {V W : World} {Γ : List (String × Option Ty)} (H : Holds q W Γ) (e : Expr) :
    Ok q V W Γ e → ∀ T, typ W Γ e = some T → q T := by
  induction e with
  | num => intro _ T h; cases h; exact q1
  | text => intro _ T h; cases h; exact q2
  | var x =>
    intro _ T h
    simp only [typ] at h
    cases e : Γ.lookup x with
    | none => simp [e] at h
    | some o =>
      simp [e] at h
      exact H.vars _ (lookup_mem _ _ _ e) _ h
  | call g a _ =>
    intro _ T h
    simp only [typ, Option.map_eq_some_iff] at h
    obtain ⟨s, hs, rfl⟩ := h
    exact H.rets _ (List.mem_of_find?_eq_some hs)
  | mem e x ih =>
    intro ok T h
    simp only [typ] at h
    cases ht : typ W Γ e with
    | none => simp [ht] at h
    | some U =>
      have hU := ih (ok.part (.mem e x)) U ht
      simp only [ht] at h
      split at h
      · split at h
        · split at h
          · cases h; exact q1
          · split at h
            · cases h; exact q1
            · split at h
              · cases h; exact (qp _).2 ((qa _ _).1 hU)
              · cases h
        · cases h
      · simp only [Option.bind_eq_some_iff] at h
        obtain ⟨n, _, h⟩ := h
        obtain ⟨d, hd, hm⟩ := field_mem h
        exact H.fields d hd _ hm
  | mcall e m a _ _ =>
    intro _ T h
    simp only [typ, Option.bind_eq_some_iff, Option.map_eq_some_iff] at h
    obtain ⟨n, _, s, hs, rfl⟩ := h
    exact H.rets _ (List.mem_of_find?_eq_some hs)
  | addr e ih =>
    intro ok T h
    simp only [typ, Option.map_eq_some_iff] at h
    obtain ⟨U, hU, rfl⟩ := h
    exact (qp _).2 (ih (ok.part (.addr e)) U hU)
  | deref e ih =>
    intro ok T h
    simp only [typ] at h
    split at h
    · rename_i t ht
      cases h
      exact (qp _).1 (ih (ok.part (.deref e)) _ ht)
    · cases h
  | idx e i ih _ =>
    intro ok T h
    simp only [typ] at h
    split at h
    · rename_i t ht
      cases h
      exact (qp _).1 (ih (ok.part (.idxL e i)) _ ht)
    · rename_i k t ht
      cases h
      exact (qa _ _).1 (ih (ok.part (.idxL e i)) _ ht)
    · cases h
  | lit n fs _ => intro _ T h; cases h; exact qs n
  | cast t e _ => intro ok T h; cases h; exact ok.casts t e (.refl _)
  | bin c a b iha _ =>
    intro ok T h
    simp only [typ] at h
    split at h
    · rename_i x y hx hy
      cases h
      split
      · exact q1
      · exact iha (ok.part (.binL c a b)) _ hx
    · cases h
  | nil => intro _ T h; cases h
  | cons _ _ _ _ _ => intro _ T h; cases h

theorem typ_plain {V W : World} {Γ : List (String × Option Ty)} (H : Holds Plain W Γ) {e : Expr}
    (ok : Ok Plain V W Γ e) {T : Ty} (h : typ W Γ e = some T) : Plain T :=
  typ_holds Plain trivial trivial (fun _ => trivial) (fun _ => Iff.rfl) (fun _ _ => Iff.rfl) H e ok T h

theorem typ_noAlias {V W : World} {Γ : List (String × Option Ty)} (H : Holds NoAlias W Γ) {e : Expr}
    (ok : Ok NoAlias V W Γ e) {T : Ty} (h : typ W Γ e = some T) : NoAlias T :=
  typ_holds NoAlias trivial trivial (fun _ => trivial) (fun _ => Iff.rfl) (fun _ _ => Iff.rfl) H e ok T h

theorem noAlias_plain {t : Ty} (h : NoAlias t) : Plain t := by
  induction t with
  | ptr t ih => exact ih h
  | arr k t ih => exact ih h
  | alias => exact h.elim
  | _ => trivial

/-! ## One test -/

/-- The type of the target of an expression with a plain type. -/
theorem bind_target {V W : World} {Γ : List (String × Option Ty)} (H : Holds Plain W Γ) {e : Expr}
    (ok : Ok Plain V W Γ e) : (typ W Γ e).bind target = (typ W Γ e).bind nameOf := by
  cases h : typ W Γ e with
  | none => rfl
  | some T => simp [target_plain (typ_plain H ok h)]

theorem shut_iff {E : Env} {V W : World} (S : Same E V) (f n : String)
    (k : V.structs.find? (fun d => d.name == n) = W.structs.find? (fun d => d.name == n)) :
    shut E f n = true ↔ Foreign W f n := by
  have hk := S.structs n
  rw [k] at hk
  simp only [shut, Foreign]
  cases a : findStruct E.structs n with
  | none =>
    rw [a] at hk
    cases b : W.structs.find? (fun d => d.name == n) with
    | none => simp
    | some d => rw [b] at hk; simp at hk
  | some d =>
    rw [a] at hk
    cases b : W.structs.find? (fun d => d.name == n) with
    | none => rw [b] at hk; simp at hk
    | some d' =>
      rw [b] at hk
      simp only [Option.map_some, key, Option.some.injEq, Prod.mk.injEq] at hk
      obtain ⟨h1, h2, -⟩ := hk
      constructor
      · intro h
        simp only [Bool.and_eq_true, Bool.not_eq_true', beq_eq_false_iff_ne, ne_eq] at h
        refine ⟨d', rfl, by rw [← h1]; exact h.1, ?_⟩
        rw [h.1, ← h1, h.1] at h2
        simp at h2
        rw [← h2]; exact h.2
      · rintro ⟨d'', e, h3, h4⟩
        cases e
        rw [h1, h3] at h2
        simp at h2
        simp only [Bool.and_eq_true, Bool.not_eq_true', beq_eq_false_iff_ne, ne_eq]
        exact ⟨by rw [h1]; exact h3, by rw [h2]; exact h4⟩

theorem blocked_iff {E : Env} {V W : World} {Γ : List (String × Option Ty)} (S : Same E V)
    (H : Holds Plain W Γ) {e : Expr} (ok : Ok Plain V W Γ e) (f : String)
    (k : ∀ n, (typ W Γ e).bind target = some n →
      V.structs.find? (fun d => d.name == n) = W.structs.find? (fun d => d.name == n)) :
    blocked E f (typ W Γ e) = true ↔ ∃ n, (typ W Γ e).bind target = some n ∧ Foreign W f n := by
  rw [bind_target H ok] at k ⊢
  simp only [blocked]
  cases h : (typ W Γ e).bind nameOf with
  | none => simp
  | some n =>
    simp only [shut_iff S f n (k n h), Option.some.injEq]
    exact ⟨fun h => ⟨n, rfl, h⟩, fun ⟨m, e, h⟩ => by rw [e]; exact h⟩

theorem fieldTy_eq {E : Env} {V W : World} {Γ : List (String × Option Ty)} (S : Same E V)
    (H : Holds Plain W Γ) {e : Expr} (ok : Ok Plain V W Γ e) (x : String)
    (k : ∀ n, (typ W Γ e).bind target = some n →
      V.structs.find? (fun d => d.name == n) = W.structs.find? (fun d => d.name == n)) :
    fieldTy E.structs (typ W Γ e) x = typ W Γ (.mem e x) := by
  simp only [typ]
  cases h : typ W Γ e with
  | none => rfl
  | some T =>
    have pT := typ_plain H ok h
    have key' : ∀ n, nameOf T = some n →
        (findStruct E.structs n).bind (fun d => d.fields.lookup x) = field W n x := by
      intro n hn
      have hk := S.structs n
      rw [k n (by rw [h]; simp [target_plain pT, hn])] at hk
      simp only [field]
      cases a : findStruct E.structs n <;> cases b : W.structs.find? (fun d => d.name == n) <;>
        rw [a, b] at hk <;> simp [key] at hk ⊢
      rw [hk.2.2]
    cases T with
    | arr k t => simp only [fieldTy, strip]; by_cases hk : k = 0 <;> simp [hk]
    | alias n f t => rcases pT with e | e | e | e <;> subst e <;> simp [fieldTy, strip, nameOf, target]
    | struct n =>
      simp only [fieldTy, strip, target, nameOf, Option.bind_some]
      exact key' n rfl
    | ptr t =>
      simp only [fieldTy, strip]
      rw [target_plain pT]
      cases hn : nameOf (.ptr t) with
      | none => simp
      | some n => simp only [Option.bind_some]; exact key' n hn
    | _ => simp [fieldTy, strip, nameOf, target]

/-! ## Expressions -/

/-- The type the parser finds is the real one. -/
theorem check_typ {E : Env} {V W : World} {Γ : List (String × Option Ty)} (S : Same E V)
    (H : Holds Plain W Γ) (f : String) (e : Expr) :
    Ok Plain V W Γ e → ∀ t, check E f Γ e = some t → t = typ W Γ e := by
  induction e with
  | num | text | var x => intro _ t h; simp [check] at h; simp [typ, h]
  | nil => intro _ t h; simp [check] at h; simp [typ, h]
  | call g a _ =>
    intro ok t h
    simp only [check, Option.map_eq_some_iff] at h
    obtain ⟨_, _, rfl⟩ := h
    have hk : Known V W Γ (.call g a) := ok.known _ (.refl _)
    simp only [Known] at hk
    simp only [typ, findFun, S.funs, hk]
  | mem e x ih =>
    intro ok t h
    simp only [check, Option.bind_eq_some_iff] at h
    obtain ⟨u, hu, h⟩ := h
    have ok' := ok.part (.mem e x)
    have := ih ok' u hu
    subst this
    split at h
    · cases h
    · cases h
      exact fieldTy_eq S H ok' x (ok.known _ (.refl _))
  | mcall e m a ih _ =>
    intro ok t h
    simp only [check, Option.bind_eq_some_iff] at h
    obtain ⟨u, hu, h⟩ := h
    have ok' := ok.part (.mcallL e m a)
    have := ih ok' u hu
    subst this
    split at h
    · cases h
    · simp only [Option.map_eq_some_iff] at h
      obtain ⟨_, _, rfl⟩ := h
      have hk : Known V W Γ (.mcall e m a) := ok.known _ (.refl _)
      simp only [Known] at hk
      simp only [typ, methodTy]
      rw [bind_target H ok'] at hk ⊢
      cases hn : (typ W Γ e).bind nameOf with
      | none => rfl
      | some n => simp only [Option.bind_some, findFun, S.funs, (hk n hn).2]
  | addr e ih =>
    intro ok t h
    simp only [check, Option.map_eq_some_iff] at h
    obtain ⟨u, hu, rfl⟩ := h
    rw [ih (ok.part (.addr e)) u hu]; simp [typ]
  | deref e ih =>
    intro ok t h
    simp only [check, Option.map_eq_some_iff] at h
    obtain ⟨u, hu, rfl⟩ := h
    rw [ih (ok.part (.deref e)) u hu]
    simp only [typ]
    cases h : typ W Γ e with
    | none => rfl
    | some T => cases T <;> rfl
  | idx e i ih _ =>
    intro ok t h
    simp only [check, Option.bind_eq_some_iff, Option.map_eq_some_iff] at h
    obtain ⟨u, hu, _, _, rfl⟩ := h
    rw [ih (ok.part (.idxL e i)) u hu]
    have hk : Known V W Γ (.idx e i) := ok.known _ (.refl _)
    obtain ⟨t, hk | ⟨k, hk⟩⟩ := hk <;> simp [typ, hk, elemTy]
  | lit n fs _ =>
    intro ok t h
    simp only [check] at h
    split at h
    · cases h
    · simp only [Option.map_eq_some_iff] at h
      obtain ⟨_, _, rfl⟩ := h
      rfl
  | cast T e _ =>
    intro ok t h
    simp only [check, Option.map_eq_some_iff] at h
    obtain ⟨_, _, rfl⟩ := h
    rfl
  | bin c a b iha ihb =>
    intro ok t h
    simp only [check, Option.bind_eq_some_iff] at h
    obtain ⟨u, hu, v, hv, h⟩ := h
    have e1 := iha (ok.part (.binL c a b)) u hu
    have e2 := ihb (ok.part (.binR c a b)) v hv
    simp only [typ, ← e1, ← e2]
    cases u with
    | none => simp at h; simp [h]
    | some x =>
      cases v with
      | none => simp at h; simp [h]
      | some y =>
        cases c <;> simp at h <;> simp [← h.2]
  | cons l e r _ _ =>
    intro ok t h
    simp only [check, Option.bind_eq_some_iff, Option.map_eq_some_iff] at h
    obtain ⟨_, _, _, _, rfl⟩ := h
    rfl

/-- Parts of an accepted expression are accepted. -/
theorem check_part {E : Env} {f : String} {Γ : List (String × Option Ty)} {a e : Expr}
    (p : Part a e) (h : (check E f Γ e).isSome) : (check E f Γ a).isSome := by
  cases p <;> simp only [check] at h
  case call => simpa using h
  case mem => cases k : check E f Γ a <;> simp_all
  case mcallL => cases k : check E f Γ a <;> simp_all
  case mcallR m e => cases k : check E f Γ m <;> simp_all <;> split at h <;> simp_all
  case addr => simpa using h
  case deref => simpa using h
  case idxL => cases k : check E f Γ a <;> simp_all
  case idxR e => cases k : check E f Γ e <;> simp_all
  case lit => split at h <;> simp_all
  case cast => simpa using h
  case binL => cases k : check E f Γ a <;> simp_all
  case binR c e => cases k : check E f Γ e <;> simp_all; cases k : check E f Γ a <;> simp_all
  case consL => cases k : check E f Γ a <;> simp_all
  case consR e => cases k : check E f Γ e <;> simp_all

theorem check_within {E : Env} {f : String} {Γ : List (String × Option Ty)} {a e : Expr}
    (p : Within a e) : (check E f Γ e).isSome → (check E f Γ a).isSome := by
  induction p with
  | refl => exact id
  | step _ p ih => exact fun h => ih (check_part p h)

theorem Ok.within {q V W Γ a e} (h : Ok q V W Γ e) (p : Within a e) : Ok q V W Γ a := by
  induction p with
  | refl => exact h
  | step _ p ih => exact ih (h.part p)

/-- An accepted expression opens no foreign struct. -/
theorem check_sound {E : Env} {V W : World} {Γ : List (String × Option Ty)} (S : Same E V)
    (H : Holds Plain W Γ) (f : String) {e : Expr} (ok : Ok Plain V W Γ e)
    (h : (check E f Γ e).isSome) {a : Expr} (p : Within a e) {n : String}
    (o : opens W Γ n a ∨ calls W Γ n a) : ¬ Foreign W f n := by
  have ha := check_within p h
  have oka := ok.within p
  intro F
  cases a with
  | mem e x =>
    have o : (typ W Γ e).bind target = some n := by rcases o with o | o; exact o; exact o.elim
    obtain ⟨u, hu⟩ := Option.isSome_iff_exists.1 (check_part (.mem e x) ha)
    have oke := oka.part (.mem e x)
    have := check_typ S H f e oke u hu
    simp only [check, hu, Option.bind_some, this] at ha
    rw [(blocked_iff S H oke f (oka.known _ (.refl _))).2 ⟨n, o, F⟩] at ha
    simp at ha
  | mcall e m a =>
    have o : (typ W Γ e).bind target = some n := by rcases o with o | o; exact o.elim; exact o
    obtain ⟨u, hu⟩ := Option.isSome_iff_exists.1 (check_part (.mcallL e m a) ha)
    have oke := oka.part (.mcallL e m a)
    have := check_typ S H f e oke u hu
    simp only [check, hu, Option.bind_some, this] at ha
    have kn : Known V W Γ (.mcall e m a) := oka.known _ (.refl _)
    rw [(blocked_iff S H oke f (fun n hn => (kn n hn).1)).2 ⟨n, o, F⟩] at ha
    simp at ha
  | lit m fs =>
    have o : m = n := by rcases o with o | o; exact o; exact o.elim
    subst o
    simp only [check] at ha
    rw [(shut_iff S f m (oka.known _ (.refl _))).2 F] at ha
    simp at ha
  | _ => simp [opens, calls] at o

theorem compat_noAlias (f : String) {a b : Ty} (ha : NoAlias a) (hb : NoAlias b) :
    compat f a b = true := by
  rw [compat.eq_def]
  cases a <;> cases b <;> first | rfl | exact ha.elim | exact hb.elim

/-- Without opaque aliases and comparisons of unlike types, an expression that opens no foreign
struct and calls none of their methods is accepted. -/
theorem check_complete {E : Env} {V W : World} {Γ : List (String × Option Ty)} (S : Same E V)
    (H : Holds NoAlias W Γ) (f : String) (e : Expr) :
    Ok NoAlias V W Γ e →
    (∀ a n, Within a e → opens W Γ n a ∨ calls W Γ n a → ¬ Foreign W f n) →
    (∀ l r, Within (.bin true l r) e → ∀ x y, typ W Γ l = some x → typ W Γ r = some y →
      typeEq x y = true) →
    (check E f Γ e).isSome := by
  have H' : Holds Plain W Γ := ⟨fun d hd x hx => noAlias_plain (H.fields d hd x hx),
    fun s hs => noAlias_plain (H.rets s hs), fun p hp T hT => noAlias_plain (H.vars p hp T hT)⟩
  have okP : ∀ {e}, Ok NoAlias V W Γ e → Ok Plain V W Γ e := fun ok =>
    ⟨ok.known, fun t a h => noAlias_plain (ok.casts t a h)⟩
  have st : ∀ {a e} (_ : Part a e), (∀ b n, Within b e → opens W Γ n b ∨ calls W Γ n b → ¬ Foreign W f n) →
      ∀ b n, Within b a → opens W Γ n b ∨ calls W Γ n b → ¬ Foreign W f n :=
    fun p h b n hb => h b n (.step hb p)
  have sc : ∀ {a e} (_ : Part a e), (∀ l r, Within (.bin true l r) e → ∀ x y, typ W Γ l = some x →
      typ W Γ r = some y → typeEq x y = true) →
      ∀ l r, Within (.bin true l r) a → ∀ x y, typ W Γ l = some x → typ W Γ r = some y →
        typeEq x y = true :=
    fun p h l r hb => h l r (.step hb p)
  induction e with
  | num | text | var x | nil => intros; simp [check]
  | call g a ih =>
    intro ok ho hc
    simpa [check] using ih (ok.part (.call g a)) (st (.call g a) ho) (sc (.call g a) hc)
  | mem e x ih =>
    intro ok ho hc
    obtain ⟨u, hu⟩ := Option.isSome_iff_exists.1
      (ih (ok.part (.mem e x)) (st (.mem e x) ho) (sc (.mem e x) hc))
    have oke := okP (ok.part (.mem e x))
    have ht := check_typ S H' f e oke u hu
    have nb : blocked E f u = false := by
      rw [Bool.eq_false_iff, ht]
      intro hb
      obtain ⟨n, hn, F⟩ := (blocked_iff S H' oke f (ok.known _ (.refl _))).1 hb
      exact ho _ n (.refl _) (Or.inl hn) F
    simp [check, hu, nb]
  | mcall e m a ih iha =>
    intro ok ho hc
    obtain ⟨u, hu⟩ := Option.isSome_iff_exists.1
      (ih (ok.part (.mcallL e m a)) (st (.mcallL e m a) ho) (sc (.mcallL e m a) hc))
    have oke := okP (ok.part (.mcallL e m a))
    have ht := check_typ S H' f e oke u hu
    have kn : Known V W Γ (.mcall e m a) := ok.known _ (.refl _)
    have nb : blocked E f u = false := by
      rw [Bool.eq_false_iff, ht]
      intro hb
      obtain ⟨n, hn, F⟩ := (blocked_iff S H' oke f (fun n hn => (kn n hn).1)).1 hb
      exact ho _ n (.refl _) (Or.inr hn) F
    have := iha (ok.part (.mcallR e m a)) (st (.mcallR e m a) ho) (sc (.mcallR e m a) hc)
    simpa [check, hu, nb] using this
  | addr e ih =>
    intro ok ho hc
    simpa [check] using ih (ok.part (.addr e)) (st (.addr e) ho) (sc (.addr e) hc)
  | deref e ih =>
    intro ok ho hc
    simpa [check] using ih (ok.part (.deref e)) (st (.deref e) ho) (sc (.deref e) hc)
  | idx e i ih ihi =>
    intro ok ho hc
    obtain ⟨u, hu⟩ := Option.isSome_iff_exists.1
      (ih (ok.part (.idxL e i)) (st (.idxL e i) ho) (sc (.idxL e i) hc))
    have := ihi (ok.part (.idxR e i)) (st (.idxR e i) ho) (sc (.idxR e i) hc)
    simpa [check, hu] using this
  | lit n fs ih =>
    intro ok ho hc
    have ns : shut E f n = false := by
      rw [Bool.eq_false_iff]
      intro hb
      exact ho _ n (.refl _) (Or.inl rfl) ((shut_iff S f n (ok.known _ (.refl _))).1 hb)
    simpa [check, ns] using ih (ok.part (.lit n fs)) (st (.lit n fs) ho) (sc (.lit n fs) hc)
  | cast t e ih =>
    intro ok ho hc
    simpa [check] using ih (ok.part (.cast t e)) (st (.cast t e) ho) (sc (.cast t e) hc)
  | bin c a b iha ihb =>
    intro ok ho hc
    obtain ⟨u, hu⟩ := Option.isSome_iff_exists.1
      (iha (ok.part (.binL c a b)) (st (.binL c a b) ho) (sc (.binL c a b) hc))
    obtain ⟨v, hv⟩ := Option.isSome_iff_exists.1
      (ihb (ok.part (.binR c a b)) (st (.binR c a b) ho) (sc (.binR c a b) hc))
    have tu := check_typ S H' f a (okP (ok.part (.binL c a b))) u hu
    have tv := check_typ S H' f b (okP (ok.part (.binR c a b))) v hv
    simp only [check, hu, hv, Option.bind_some]
    cases u with
    | none => simp
    | some x =>
      cases v with
      | none => simp
      | some y =>
        cases c with
        | true =>
          have := hc a b (.refl _) x y tu.symm tv.symm
          simp [comparable, this]
        | false =>
          have := compat_noAlias f (typ_noAlias H (ok.part (.binL false a b)) tu.symm)
            (typ_noAlias H (ok.part (.binR false a b)) tv.symm)
          simp [fits, this]
  | cons l e r ihe ihr =>
    intro ok ho hc
    obtain ⟨u, hu⟩ := Option.isSome_iff_exists.1
      (ihe (ok.part (.consL l e r)) (st (.consL l e r) ho) (sc (.consL l e r) hc))
    have := ihr (ok.part (.consR l e r)) (st (.consR l e r) ho) (sc (.consR l e r) hc)
    simpa [check, hu] using this

end Verif.Opaque
