import Verif.CDecl.Model

/-!
# Declarations of C have the types that were written (C169)
-/

namespace Verif.CDecl
open Spec

/-! ## the grammar as rules -/

/-- With enough depth. -/
def Dec (ts : List Tok) (m : List Ctor) (x : Option Nat) (r : List Tok) : Prop := ∃ n, ∀ f, n ≤ f → declr f ts = some (m, x, r)
def Suf (ts : List Tok) (g : List Ctor) (r : List Tok) : Prop := ∃ n, ∀ f, n ≤ f → suffix f ts = some (g, r)
def Par (ts : List Tok) (ps : CTys) (r : List Tok) : Prop := ∃ n, ∀ f, n ≤ f → params f ts = some (ps, r)
def Decl (ts : List Tok) (t : CTy) (x : Option Nat) (r : List Tok) : Prop := ∃ n, ∀ f, n ≤ f → decl f ts = some (t, x, r)

/-- A declaration declares one thing. -/
theorem Decl.unique {ts : List Tok} {t t' : CTy} {x x' : Option Nat} {r r' : List Tok} (h : Decl ts t x r) (h' : Decl ts t' x' r') : t = t' ∧ x = x' ∧ r = r' := by
  obtain ⟨n, h⟩ := h
  obtain ⟨n', h'⟩ := h'
  have a := h (max n n') (Nat.le_max_left _ _)
  have b := h' (max n n') (Nat.le_max_right _ _)
  rw [a] at b
  injection b with b
  injection b with b1 b2
  injection b2 with b2 b3
  exact ⟨b1, b2, b3⟩

theorem enough {P : Nat → Prop} {n : Nat} (h : ∀ f, n ≤ f → P (f + 1)) : ∃ n, ∀ f, n ≤ f → P f :=
  ⟨n + 1, fun f hf => by
    cases f with
    | zero => omega
    | succ f => exact h f (by omega)⟩

theorem dec_star {ts : List Tok} {m : List Ctor} {x : Option Nat} {r : List Tok} (h : Dec ts m x r) : Dec (.star :: ts) (m ++ [.ptr]) x r := by
  obtain ⟨n, h⟩ := h
  refine enough (n := n) fun f hf => ?_
  simp only [declr]
  rw [h f hf]; rfl

theorem dec_paren {ts : List Tok} {m g : List Ctor} {x : Option Nat} {r r' : List Tok} (h : Dec (.star :: ts) m x (.rp :: r)) (h' : Suf r g r') :
    Dec (.lp :: .star :: ts) (m ++ g) x r' := by
  obtain ⟨n, h⟩ := h
  obtain ⟨n', h'⟩ := h'
  refine enough (n := max n n') fun f hf => ?_
  simp only [declr]
  rw [h f (by omega)]
  show (suffix f r).bind _ = _
  rw [h' f (by omega)]; rfl

theorem dec_name {ts : List Tok} {g : List Ctor} {x : Nat} {r : List Tok} (h : Suf ts g r) : Dec (.id x :: ts) g (some x) r := by
  obtain ⟨n, h⟩ := h
  refine enough (n := n) fun f hf => ?_
  simp only [declr]
  rw [h f hf]; rfl

/-- Tokens at which a declarator ends or goes on without a name. -/
def Plain : List Tok → Prop
  | [] => True
  | .rp :: _ => True
  | .comma :: _ => True
  | .arr _ :: _ => True
  | _ => False

theorem dec_none {ts : List Tok} {g : List Ctor} {r : List Tok} (hp : Plain ts) (h : Suf ts g r) : Dec ts g none r := by
  obtain ⟨n, h⟩ := h
  refine enough (n := n) fun f hf => ?_
  match ts, hp with
  | [], _ => simp only [declr]; rw [h f hf]; rfl
  | .rp :: _, _ => simp only [declr]; rw [h f hf]; rfl
  | .comma :: _, _ => simp only [declr]; rw [h f hf]; rfl
  | .arr _ :: _, _ => simp only [declr]; rw [h f hf]; rfl

theorem suf_arr {ts : List Tok} {g : List Ctor} {k : Nat} {r : List Tok} (h : Suf ts g r) : Suf (.arr k :: ts) (.arr k :: g) r := by
  obtain ⟨n, h⟩ := h
  refine enough (n := n) fun f hf => ?_
  simp only [suffix]
  rw [h f hf]; rfl

theorem suf_fn {ts : List Tok} {ps : CTys} {g : List Ctor} {r r' : List Tok} (h : Par ts ps r) (h' : Suf r g r') : Suf (.lp :: ts) (.fn ps :: g) r' := by
  obtain ⟨n, h⟩ := h
  obtain ⟨n', h'⟩ := h'
  refine enough (n := max n n') fun f hf => ?_
  simp only [suffix]
  rw [h f (by omega)]
  show (suffix f r).bind _ = _
  rw [h' f (by omega)]; rfl

/-- Tokens at which a declaration ends. -/
def Ends : List Tok → Prop
  | .arr _ :: _ => False
  | .lp :: _ => False
  | _ => True

theorem suf_stop {ts : List Tok} (h : Ends ts) : Suf ts [] ts := by
  refine enough (n := 0) fun f hf => ?_
  match ts, h with
  | [], _ => simp only [suffix]
  | .rp :: _, _ => simp only [suffix]
  | .comma :: _, _ => simp only [suffix]
  | .id _ :: _, _ => simp only [suffix]
  | .star :: _, _ => simp only [suffix]

theorem decl_rule {ts : List Tok} {s : Nat} {m : List Ctor} {x : Option Nat} {r : List Tok} (h : Dec ts m x r) :
    Decl (.id s :: ts) (build m (.base s)) x r := by
  obtain ⟨n, h⟩ := h
  refine enough (n := n) fun f hf => ?_
  simp only [decl]
  rw [h f hf]; rfl

theorem par_nil {r : List Tok} : Par (.rp :: r) .nil r := by
  refine enough (n := 0) fun f hf => ?_
  simp only [params]

theorem par_void {r : List Tok} : Par (.id 0 :: .rp :: r) .nil r := by
  refine enough (n := 0) fun f hf => ?_
  simp only [params]

/-- The text is not `void)`. -/
def NotVoid : List Tok → Prop
  | .id 0 :: .rp :: _ => False
  | .id _ :: _ => True
  | _ => False

theorem par_one {ts : List Tok} {t : CTy} {x : Option Nat} {r : List Tok} (hv : NotVoid ts) (h : Decl ts t x (.rp :: r)) : Par ts (.cons t .nil) r := by
  obtain ⟨n, h⟩ := h
  refine enough (n := n) fun f hf => ?_
  match ts, hv with
  | .id s :: ts', hv =>
    rw [params]
    · rw [h f hf]; rfl
    · intro r' he; cases he
    · intro r' he; rw [he] at hv; exact hv

theorem par_cons {ts : List Tok} {t : CTy} {ps : CTys} {x : Option Nat} {r r' : List Tok} (hv : NotVoid ts) (h : Decl ts t x (.comma :: r)) (h' : Par r ps r') :
    Par ts (.cons t ps) r' := by
  obtain ⟨n, h⟩ := h
  obtain ⟨n', h'⟩ := h'
  refine enough (n := max n n') fun f hf => ?_
  match ts, hv with
  | .id s :: ts', hv =>
    rw [params]
    · rw [h f (by omega)]
      show (params f r).bind _ = _
      rw [h' f (by omega)]; rfl
    · intro r' he; cases he
    · intro r' he; rw [he] at hv; exact hv

/-! ## shapes of the text -/

/-- `k` stars. -/
def stars (k : Nat) : List Tok := List.replicate k .star
def ptrs (k : Nat) : List Ctor := List.replicate k .ptr
def sizes (ns : List Nat) : List Tok := ns.map .arr
def arrs (ns : List Nat) : List Ctor := ns.map .arr

theorem build_append (a b : List Ctor) (t : CTy) : build (a ++ b) t = build a (build b t) := by
  induction a with
  | nil => rfl
  | cons c a ih => cases c <;> simp only [List.cons_append, build, ih]

theorem dec_stars {ts : List Tok} {m : List Ctor} {x : Option Nat} {r : List Tok} (h : Dec ts m x r) : ∀ k, Dec (stars k ++ ts) (m ++ ptrs k) x r
  | 0 => by simpa [stars, ptrs] using h
  | k + 1 => by
    have := dec_star (dec_stars h k)
    rw [List.append_assoc] at this
    have e : ptrs k ++ [Ctor.ptr] = ptrs (k + 1) := List.replicate_succ'.symm
    rw [e] at this
    exact this

theorem suf_sizes {r : List Tok} (h : Ends r) : ∀ ns, Suf (sizes ns ++ r) (arrs ns) r
  | [] => suf_stop h
  | n :: ns => suf_arr (suf_sizes h ns)

theorem simple_cstr : ∀ (t : Ty), simple t = true → ∃ b k, (∀ ds, cstr ds t = .id b :: stars k ++ ds) ∧ cty t = build (ptrs k) (.base b) ∧ (t = .base b ∨ 0 < k)
  | .base s, _ => ⟨s, 0, fun ds => by simp only [cstr]; rfl, by simp only [cty]; rfl, .inl rfl⟩
  | .ptr t, h => by
    simp only [simple] at h
    obtain ⟨b, k, h1, h2, _⟩ := simple_cstr t h
    refine ⟨b, k + 1, fun ds => ?_, ?_, .inr (Nat.succ_pos k)⟩
    · simp only [cstr, h1, List.append_nil]
      have hf : ∀ k, findPtr (stars k) = none := by
        intro k
        induction k with
        | zero => rfl
        | succ k ih =>
          show (findPtr (stars k)).map _ = none
          rw [ih]; rfl
      have : findPtr (.id b :: stars k) = none := by
        show (findPtr (stars k)).map _ = none
        rw [hf]; rfl
      simp only [cptr, this]
      have e : stars k ++ [Tok.star] = stars (k + 1) := List.replicate_succ'.symm
      rw [List.cons_append, e]
    · simp only [cty, h2]; rfl
  | .arr _ _, h => by simp only [simple] at h; cases h
  | .fn _ _, h => by simp only [simple] at h; cases h

theorem arrays_cstr : ∀ (t : Ty), arrays t = true → ∃ b k ns, (∀ ds, cstr ds t = .id b :: stars k ++ (ds ++ sizes ns)) ∧
    cty t = build (arrs ns ++ ptrs k) (.base b) ∧ (t = .base b ∨ 0 < k ∨ ns ≠ [])
  | .arr n t, h => by
    simp only [arrays] at h
    obtain ⟨b, k, ns, h1, h2, _⟩ := arrays_cstr t h
    refine ⟨b, k, n :: ns, fun ds => ?_, ?_, .inr (.inr (by simp))⟩
    · simp only [cstr, h1, List.append_assoc]; rfl
    · simp only [cty, h2]; rfl
  | .base s, _ => ⟨s, 0, [], fun ds => by simp only [cstr]; simp [stars, sizes], by simp only [cty]; rfl, .inl rfl⟩
  | .ptr t, h => by
    simp only [arrays] at h
    obtain ⟨b, k, h1, h2, h3⟩ := simple_cstr (.ptr t) h
    refine ⟨b, k, [], fun ds => by rw [h1]; simp [sizes], by rw [h2]; rfl, ?_⟩
    rcases h3 with h3 | h3
    · cases h3
    · exact .inr (.inl h3)
  | .fn _ _, h => by simp only [arrays, simple] at h; cases h

theorem findPtr_pre : ∀ (b k : Nat) (r : List Tok), findPtr (.id b :: stars k ++ .lp :: .star :: r) = some (.id b :: stars k, r) := by
  intro b k r
  have hs : ∀ k, findPtr (stars k ++ .lp :: .star :: r) = some (stars k, r) := by
    intro k
    induction k with
    | zero => rfl
    | succ k ih =>
      show (findPtr (stars k ++ _)).map _ = _
      rw [ih]; rfl
  show (findPtr (stars k ++ _)).map _ = _
  rw [hs]; rfl

/-- The parameters of a pointer to a function. -/
def argsOf : Ty → Tys
  | .ptr t => argsOf t
  | .fn as _ => as
  | _ => .nil

theorem fnptr_cstr : ∀ (t : Ty), fnptr t = true → ∃ b j k,
    cstr [] t = .id b :: stars j ++ .lp :: .star :: (stars k ++ .rp :: .lp :: (cargs (argsOf t) ++ [.rp])) ∧
    cty t = build (ptrs (k + 1) ++ .fn (ctys (argsOf t)) :: ptrs j) (.base b) ∧ (k = 0 ↔ ∃ as r, t = .fn as r)
  | .ptr t, h => by
    simp only [fnptr] at h
    obtain ⟨b, j, k, h2, h3, h4⟩ := fnptr_cstr t h
    refine ⟨b, j, k + 1, ?_, ?_, ?_⟩
    · simp only [cstr, h2, List.append_nil, cptr, findPtr_pre, argsOf]; rfl
    · simp only [cty, h3, argsOf]; rfl
    · constructor
      · intro h; cases h
      · rintro ⟨as, r, h⟩; cases h
  | .fn as r, h => by
    simp only [fnptr, Bool.and_eq_true] at h
    obtain ⟨b, j, h1, h2, _⟩ := simple_cstr r h.1
    refine ⟨b, j, 0, ?_, ?_, ?_⟩
    · simp only [cstr, h1, List.append_nil, argsOf]; simp [stars]
    · simp only [cty, h2, argsOf]
      show _ = CTy.ptr (build (Ctor.fn (ctys as) :: ptrs j) (.base b))
      rfl
    · exact ⟨fun _ => ⟨as, r, rfl⟩, fun _ => rfl⟩
  | .base _, h => by simp only [fnptr] at h; cases h
  | .arr _ _, h => by simp only [fnptr] at h; cases h

/-- A good type has one of two shapes. -/
theorem good_cases {t : Ty} (h : good t = true) : (arrays t = true ∧ t ≠ .base 0) ∨ fnptr t = true := by
  cases t with
  | base s => simp only [good, bne_iff_ne] at h; exact .inl ⟨rfl, fun e => h (by cases e; rfl)⟩
  | ptr t =>
    simp only [good, Bool.or_eq_true] at h
    rcases h with h | h
    · exact .inl ⟨by simp only [arrays, simple]; exact h, fun e => by cases e⟩
    · exact .inr (by simp only [fnptr]; exact h)
  | arr n t => simp only [good] at h; exact .inl ⟨by simp only [arrays]; exact h, fun e => by cases e⟩
  | fn as r => simp only [good] at h; exact .inr (by simp only [fnptr]; exact h)

theorem plain_sizes {ns : List Nat} {r : List Tok} (h : Plain r) : Plain (sizes ns ++ r) := by
  cases ns with
  | nil => exact h
  | cons => trivial

theorem ends_plain {r : List Tok} (h : Plain r) (h' : Ends r) : Plain r ∧ Ends r := ⟨h, h'⟩

/-- The name of a declaration, if there is one. -/
def nm : Option Nat → List Tok
  | none => []
  | some x => [.id x]

/-- An array of pointers to a named type, as C reads it. -/
theorem read_arrays (b k : Nat) (ns : List Nat) (x : Option Nat) {r : List Tok} (h : Ends r) (hp : Plain r) :
    Decl (.id b :: stars k ++ (nm x ++ (sizes ns ++ r))) (build (arrs ns ++ ptrs k) (.base b)) x r := by
  refine decl_rule (dec_stars ?_ k)
  cases x with
  | none => exact dec_none (plain_sizes hp) (suf_sizes h ns)
  | some x => exact dec_name (suf_sizes h ns)

/-- A pointer to a function, as C reads it. -/
theorem read_fnptr (b j k : Nat) {args : List Tok} {ps : CTys} (x : Option Nat) {r : List Tok} (h : Ends r) (ha : Par (args ++ .rp :: r) ps r) :
    Decl (.id b :: stars j ++ .lp :: .star :: (stars k ++ (nm x ++ .rp :: .lp :: (args ++ .rp :: r)))) (build (ptrs (k + 1) ++ .fn ps :: ptrs j) (.base b)) x r := by
  have h1 : Dec (nm x ++ .rp :: .lp :: (args ++ .rp :: r)) [] x (.rp :: .lp :: (args ++ .rp :: r)) := by
    cases x with
    | none => exact dec_none trivial (suf_stop trivial)
    | some x => exact dec_name (suf_stop trivial)
  have h2 := dec_stars h1 (k + 1)
  rw [List.nil_append] at h2
  have h3 := dec_paren (ts := stars k ++ (nm x ++ .rp :: .lp :: (args ++ .rp :: r))) h2 (suf_fn ha (suf_stop h))
  have h4 := decl_rule (s := b) (dec_stars h3 j)
  rw [List.append_assoc] at h4
  exact h4

theorem notVoid_of {b k : Nat} {t : Ty} (x : Option Nat) {ns : List Nat} {r : List Tok} (h0 : t ≠ .base 0) (h : t = .base b ∨ 0 < k ∨ ns ≠ []) :
    NotVoid (.id b :: stars k ++ (nm x ++ (sizes ns ++ r))) := by
  cases b with
  | succ b => cases k <;> cases x <;> cases ns <;> trivial
  | zero =>
    rcases h with h | h | h
    · exact absurd h h0
    · cases k with
      | zero => omega
      | succ k => trivial
    · cases ns with
      | nil => exact absurd rfl h
      | cons n ns =>
        cases k <;> cases x <;> trivial

theorem notVoid_fn (b j : Nat) (r : List Tok) : NotVoid (.id b :: stars j ++ .lp :: r) := by
  cases b <;> cases j <;> trivial

mutual
/-- The text of a good type is read as the type. -/
theorem read_type : ∀ (t : Ty), good t = true → ∀ r, Ends r → Plain r → Decl (cstr [] t ++ r) (cty t) none r ∧ NotVoid (cstr [] t ++ r)
  | .base s, h, r, he, hp => by
    obtain ⟨b, k, ns, h1, h2, h3⟩ := arrays_cstr (.base s) rfl
    have h0 : Ty.base s ≠ .base 0 := by
      rcases good_cases h with h | h
      · exact h.2
      · simp only [fnptr] at h; cases h
    rw [h1, h2]
    simp only [List.nil_append, List.append_assoc]
    exact ⟨read_arrays b k ns none he hp, notVoid_of none h0 h3⟩
  | .arr n t, h, r, he, hp => by
    have h' : arrays (.arr n t) = true := by simp only [good] at h; simp only [arrays]; exact h
    obtain ⟨b, k, ns, h1, h2, h3⟩ := arrays_cstr (.arr n t) h'
    rw [h1, h2]
    simp only [List.nil_append, List.append_assoc]
    exact ⟨read_arrays b k ns none he hp, notVoid_of none (fun e => by cases e) h3⟩
  | .ptr t, h, r, he, hp => by
    simp only [good, Bool.or_eq_true] at h
    rcases h with h | h
    · obtain ⟨b, k, ns, h1, h2, h3⟩ := arrays_cstr (.ptr t) (by simp only [arrays, simple]; exact h)
      rw [h1, h2]
      simp only [List.nil_append, List.append_assoc]
      exact ⟨read_arrays b k ns none he hp, notVoid_of none (fun e => by cases e) h3⟩
    · obtain ⟨b, j, k, h2, h3, _⟩ := fnptr_cstr (.ptr t) (by simp only [fnptr]; exact h)
      have := read_fnptr b j k none he (read_ptr t h r)
      rw [h2, h3]
      simp only [argsOf]
      simp only [List.append_assoc, List.cons_append, List.nil_append, nm] at this ⊢
      exact ⟨this, notVoid_fn b j _⟩
  | .fn as r', h, r, he, hp => by
    simp only [good, Bool.and_eq_true] at h
    obtain ⟨b, j, h1, h2, _⟩ := simple_cstr r' h.1
    have := read_fnptr b j 0 none he (read_args as h.2 r)
    simp only [cstr, cty, h1, h2]
    simp only [List.append_assoc, List.cons_append, List.nil_append, nm, stars, List.replicate_zero, List.append_nil] at this ⊢
    exact ⟨this, notVoid_fn b j _⟩
/-- Parameters of a pointer to a function pointer. -/
theorem read_ptr : ∀ (t : Ty), fnptr t = true → ∀ r, Par (cargs (argsOf t) ++ .rp :: r) (ctys (argsOf t)) r
  | .ptr t, h, r => by
    simp only [fnptr] at h
    simp only [argsOf]
    exact read_ptr t h r
  | .fn as _, h, r => by
    simp only [fnptr, Bool.and_eq_true] at h
    simp only [argsOf]
    exact read_args as h.2 r
  | .base _, h, _ => by simp only [fnptr] at h; cases h
  | .arr _ _, h, _ => by simp only [fnptr] at h; cases h
theorem read_args : ∀ (as : Tys), goods as = true → ∀ r, Par (cargs as ++ .rp :: r) (ctys as) r
  | .nil, _, r => by simp only [cargs, ctys]; exact par_nil
  | .cons t .nil, h, r => by
    simp only [goods, Bool.and_eq_true] at h
    simp only [cargs, ctys]
    obtain ⟨h1, h2⟩ := read_type t h.1 (.rp :: r) trivial trivial
    exact par_one h2 h1
  | .cons t (.cons u q), h, r => by
    simp only [goods, Bool.and_eq_true] at h
    simp only [cargs, ctys, List.append_assoc, List.cons_append]
    obtain ⟨h1, h2⟩ := read_type t h.1 (.comma :: (cargs (.cons u q) ++ .rp :: r)) trivial trivial
    refine par_cons h2 h1 ?_
    have := read_args (.cons u q) (by simp only [goods, Bool.and_eq_true]; exact h.2) r
    simp only [ctys] at this
    exact this
end

/-! ## names in declarations -/

theorem cut_none {p : Tok → Bool} : ∀ {a : List Tok}, (∀ x ∈ a, p x = false) → ∀ (b : List Tok), cut p (a ++ b) = (a ++ (cut p b).1, (cut p b).2)
  | [], _, b => rfl
  | x :: a, h, b => by
    have hx := h x List.mem_cons_self
    show (if p x = true then _ else _) = _
    have ih := cut_none (fun y hy => h y (List.mem_cons_of_mem _ hy)) b
    have ih' : cut p (a.append b) = _ := ih
    rw [if_neg (by rw [hx]; decide), ih']
    rfl

theorem findPtr_sizes (b k : Nat) (ns : List Nat) : findPtr (.id b :: stars k ++ sizes ns) = none := by
  have h1 : ∀ ns : List Nat, findPtr (sizes ns) = none := by
    intro ns
    induction ns with
    | nil => rfl
    | cons n ns ih =>
      show (findPtr (sizes ns)).map _ = none
      rw [ih]; rfl
  have h2 : ∀ k, findPtr (stars k ++ sizes ns) = none := by
    intro k
    induction k with
    | zero => exact h1 ns
    | succ k ih =>
      show (findPtr (stars k ++ sizes ns)).map _ = none
      rw [ih]; rfl
  show (findPtr (stars k ++ sizes ns)).map _ = none
  rw [h2]; rfl

theorem cut_sizes (ns : List Nat) : cut isArr (sizes ns) = ([], sizes ns) := by
  cases ns <;> rfl

/-- The name of an array stands in front of the sizes. -/
theorem emit_arrays (b k : Nat) (ns : List Nat) (x : Nat) : emit (.id b :: stars k ++ sizes ns) x = .id b :: stars k ++ (.id x :: sizes ns) := by
  have h : ∀ y ∈ Tok.id b :: stars k, isArr y = false := by
    intro y hy
    rcases List.mem_cons.mp hy with rfl | hy
    · rfl
    · rw [List.eq_of_mem_replicate hy]; rfl
  unfold emit
  rw [findPtr_sizes]
  simp only
  rw [cut_none h, cut_sizes]
  simp only [List.append_nil, List.cons_append]

/-- The name of a function pointer stands behind its stars. -/
theorem emit_fnptr (b j k : Nat) (r : List Tok) (x : Nat) :
    emit (.id b :: stars j ++ .lp :: .star :: (stars k ++ .rp :: r)) x = .id b :: stars j ++ .lp :: .star :: (stars k ++ .id x :: .rp :: r) := by
  have h : ∀ y ∈ stars k, (y == Tok.rp) = false := by
    intro y hy
    rw [List.eq_of_mem_replicate hy]; rfl
  unfold emit
  rw [findPtr_pre]
  simp only
  rw [cut_none h]
  have : cut (· == Tok.rp) (.rp :: r) = ([], .rp :: r) := rfl
  rw [this]
  simp only [List.append_nil, List.append_assoc, List.cons_append]

/-- The declaration of a name with a good type, with something behind it. -/
theorem read_decl {t : Ty} (h : good t = true) (x : Nat) {r : List Tok} (he : Ends r) (hp : Plain r) :
    Decl (emit (cstr [] t) x ++ r) (cty t) (some x) r ∧ NotVoid (emit (cstr [] t) x ++ r) := by
  rcases good_cases h with ⟨h', h0⟩ | h'
  · obtain ⟨b, k, ns, h1, h2, h3⟩ := arrays_cstr t h'
    rw [h1, h2, List.nil_append, emit_arrays]
    have := read_arrays b k ns (some x) he hp
    have hv := notVoid_of (some x) (r := r) h0 h3
    simp only [List.append_assoc, List.cons_append, List.nil_append, nm] at this hv ⊢
    exact ⟨this, hv⟩
  · obtain ⟨b, j, k, h2, h3, _⟩ := fnptr_cstr t h'
    rw [h2, h3, emit_fnptr]
    have := read_fnptr b j k (some x) he (read_ptr t h' r)
    simp only [List.append_assoc, List.cons_append, List.nil_append, nm] at this ⊢
    exact ⟨this, notVoid_fn b j _⟩

/-- **C169.** Variables, fields and parameters are declared in C with the type that was written, for arrays with any number of dimensions of pointers to named types, and for
function pointers with any parameters of this kind, to any depth. Missing: pointers to arrays, arrays of function pointers, function pointers that return function pointers (see
the theorems named `_violated`). -/
theorem decl_partial (t : Ty) (x : Nat) (h : good t = true) : Declares (emit (cstr [] t) x) x (cty t) := by
  have := (read_decl h x (r := []) trivial trivial).1
  rw [List.append_nil] at this
  exact this

/-! ## functions -/

/-- Types of parameters with names. -/
def ofList : List (Ty × Nat) → Tys
  | [] => .nil
  | p :: r => .cons p.1 (ofList r)

theorem read_params : ∀ (ps : List (Ty × Nat)), ps ≠ [] → goods (ofList ps) = true → ∀ r, Par (eparams ps ++ .rp :: r) (ctys (ofList ps)) r
  | [], h, _, _ => absurd rfl h
  | [p], _, h, r => by
    simp only [ofList, goods, Bool.and_eq_true] at h
    simp only [eparams, ofList, ctys]
    obtain ⟨h1, h2⟩ := read_decl h.1 p.2 (r := .rp :: r) trivial trivial
    exact par_one h2 h1
  | p :: q :: l, _, h, r => by
    rw [ofList, goods, Bool.and_eq_true] at h
    rw [ofList, ctys, eparams, List.append_assoc, List.cons_append]
    obtain ⟨h1, h2⟩ := read_decl h.1 p.2 (r := .comma :: (eparams (q :: l) ++ .rp :: r)) trivial trivial
    exact par_cons h2 h1 (read_params (q :: l) (by simp) h.2 r)

theorem read_eargs (ps : List (Ty × Nat)) (h : goods (ofList ps) = true) (r : List Tok) : Par (eargs ps ++ .rp :: r) (ctys (ofList ps)) r := by
  unfold eargs
  by_cases hp : ps = []
  · rw [if_pos hp, hp]
    simp only [ofList, ctys]
    exact par_void
  · rw [if_neg hp]
    exact read_params ps hp h r

theorem findFn_stars (b k : Nat) : findFn (.id b :: stars k) = none := by
  have h : ∀ k, findFn (stars k) = none := by
    intro k
    induction k with
    | zero => rfl
    | succ k ih =>
      show (findFn (stars k)).map _ = none
      rw [ih]; rfl
  show (findFn (stars k)).map _ = none
  rw [h]; rfl

theorem findFn_pre (b k : Nat) (r : List Tok) : findFn (.id b :: stars k ++ .lp :: .star :: .rp :: r) = some (.id b :: stars k, r) := by
  have h : ∀ k, findFn (stars k ++ .lp :: .star :: .rp :: r) = some (stars k, r) := by
    intro k
    induction k with
    | zero => rfl
    | succ k ih =>
      show (findFn (stars k ++ _)).map _ = _
      rw [ih]; rfl
  show (findFn (stars k ++ _)).map _ = _
  rw [h]; rfl

/-- **C169.** A function is declared in C with its parameters and its result: pointers to named types, or function pointers (with a result of this kind). -/
theorem sig_partial (r : Ty) (x : Nat) (ps : List (Ty × Nat)) (hr : simple r = true ∨ ∃ as q, r = .fn as q ∧ simple q = true ∧ goods as = true) (hp : goods (ofList ps) = true) :
    Declares (sig r x ps) x (.fn (ctys (ofList ps)) (cty r)) := by
  rcases hr with hr | ⟨as, q, rfl, hq, ha⟩
  · obtain ⟨b, k, h1, h2, _⟩ := simple_cstr r hr
    have h3 := dec_name (x := x) (suf_fn (read_eargs ps hp []) (suf_stop (ts := []) trivial))
    have h4 := decl_rule (s := b) (dec_stars h3 k)
    unfold sig
    rw [h1, List.append_nil, findFn_stars]
    simp only [List.cons_append, List.append_assoc]
    rw [h2]
    exact h4
  · obtain ⟨b, k, h1, h2, _⟩ := simple_cstr q hq
    have h3 := dec_name (x := x) (suf_fn (read_eargs ps hp (.rp :: .lp :: (cargs as ++ [.rp]))) (suf_stop trivial))
    have h4 := dec_paren (dec_star h3) (suf_fn (read_args as ha []) (suf_stop (ts := []) trivial))
    have h5 := decl_rule (s := b) (dec_stars h4 k)
    have hs : cstr [] (.fn as q) = .id b :: stars k ++ .lp :: .star :: .rp :: .lp :: (cargs as ++ [.rp]) := by
      simp only [cstr, h1, List.append_nil, List.append_assoc, List.cons_append]
    unfold sig
    rw [hs, findFn_pre]
    simp only [List.cons_append, List.append_assoc, cty, h2]
    exact h5

/-! ## declarations that are read -/

/-- `fn*(int[4], fn*(char*) -> void*) -> int*` with a star around it: `int* (**f)(int[4], void* (*)(char*))`. -/
def sampleTy : Ty := .ptr (.fn (.cons (.arr 4 (.base 1)) (.cons (.fn (.cons (.ptr (.base 2)) .nil) (.ptr (.base 0))) .nil)) (.ptr (.base 1)))

theorem sample_good : good sampleTy = true := by decide

theorem sample_text : emit (cstr [] sampleTy) 9 = [.id 1, .star, .lp, .star, .star, .id 9, .rp, .lp, .id 1, .arr 4, .comma, .id 0, .star, .lp, .star, .rp, .lp,
    .id 2, .star, .rp, .rp] := by decide

/-- `fn f(a: int[4], b: sampleTy) -> fn*(int) -> char*` -/
theorem sample_sig : (∃ as q, Ty.fn (.cons (.base 1) .nil) (.ptr (.base 2)) = .fn as q ∧ simple q = true ∧ goods as = true) ∧
    goods (ofList [(.arr 4 (.base 1), 5), (sampleTy, 6)]) = true ∧
    sig (.fn (.cons (.base 1) .nil) (.ptr (.base 2))) 3 [(.arr 4 (.base 1), 5)] =
      [.id 2, .star, .lp, .star, .id 3, .lp, .id 1, .id 5, .arr 4, .rp, .rp, .lp, .id 1, .rp] := by
  exact ⟨⟨_, _, rfl, by decide, by decide⟩, by decide, by decide⟩

/-! ## declarations that are not right -/

/-- What is read as something else, or with something left over, is not the declaration. -/
theorem not_declares {ts : List Tok} {t t' : CTy} {x : Nat} {x' : Option Nat} {r : List Tok} (h : Decl ts t' x' r) (hd : t' ≠ t ∨ r ≠ []) : ¬ Declares ts x t := by
  intro h'
  obtain ⟨h1, _, h3⟩ := h.unique h'
  rcases hd with hd | hd
  · exact hd h1
  · exact hd h3

/-- A pointer to an array is not a declaration of C at all: `int x[3]*`. -/
theorem array_pointer_violated (n : Nat) (t : Ty) (h : arrays t = true) (x : Nat) (u : CTy) : ¬ Declares (emit (cstr [] (.ptr (.arr n t))) x) x u := by
  obtain ⟨b, k, ns, h1, _, _⟩ := arrays_cstr (.arr n t) (by simp only [arrays]; exact h)
  have hn : ns ≠ [] := by
    obtain ⟨b', k', ns', h1', _⟩ := arrays_cstr t h
    have e1 := h1 []
    simp only [cstr, h1', List.nil_append] at e1
    intro e
    rw [e] at e1
    have e2 : (Tok.arr n) ∈ Tok.id b :: stars k ++ sizes [] := by
      rw [← e1]; simp
    rcases List.mem_append.mp e2 with e2 | e2
    · rcases List.mem_cons.mp e2 with e2 | e2
      · cases e2
      · cases List.eq_of_mem_replicate e2
    · cases e2
  have hs : emit (cstr [] (.ptr (.arr n t))) x = .id b :: stars k ++ (.id x :: (sizes ns ++ [.star])) := by
    simp only [cstr]
    have h2 := h1 []
    simp only [cstr, List.nil_append] at h2
    rw [List.nil_append, h2]
    unfold cptr
    rw [findPtr_sizes]
    simp only [List.append_nil]
    unfold emit
    have hf : findPtr (.id b :: stars k ++ sizes ns ++ [.star]) = none := by
      have g1 : ∀ ns : List Nat, findPtr (sizes ns ++ [.star]) = none := by
        intro ns
        induction ns with
        | nil => rfl
        | cons n ns ih =>
          show (findPtr (sizes ns ++ [.star])).map _ = none
          rw [ih]; rfl
      have g2 : ∀ k, findPtr (stars k ++ sizes ns ++ [.star]) = none := by
        intro k
        induction k with
        | zero => exact g1 ns
        | succ k ih =>
          show (findPtr (stars k ++ sizes ns ++ [.star])).map _ = none
          rw [ih]; rfl
      show (findPtr (stars k ++ sizes ns ++ [.star])).map _ = none
      rw [g2]; rfl
    have hp : ∀ y ∈ Tok.id b :: stars k, isArr y = false := by
      intro y hy
      rcases List.mem_cons.mp hy with rfl | hy
      · rfl
      · rw [List.eq_of_mem_replicate hy]; rfl
    rw [hf]
    simp only
    rw [List.append_assoc, cut_none hp]
    have hc : cut isArr (sizes ns ++ [.star]) = ([], sizes ns ++ [.star]) := by
      cases ns with
      | nil => exact absurd rfl hn
      | cons n ns => rfl
    rw [hc]
    simp only [List.append_nil, List.cons_append]
  rw [hs]
  have h3 := decl_rule (s := b) (dec_stars (dec_name (x := x) (suf_sizes (r := [.star]) trivial ns)) k)
  exact not_declares h3 (.inr (by simp))

/-- An array of function pointers is declared as a pointer to a function that returns an array: `int (*x)(int)[3]`. -/
theorem array_of_functions_violated (n : Nat) (as : Tys) (r : Ty) (x : Nat) (hr : simple r = true) (ha : goods as = true) :
    (∃ u, Declares (emit (cstr [] (.arr n (.fn as r))) x) x (.ptr (.fn (ctys as) (.arr n u)))) ∧ ¬ Declares (emit (cstr [] (.arr n (.fn as r))) x) x (cty (.arr n (.fn as r))) := by
  obtain ⟨b, k, h1, h2, _⟩ := simple_cstr r hr
  have hs : emit (cstr [] (.arr n (.fn as r))) x = .id b :: stars k ++ .lp :: .star :: (.id x :: .rp :: .lp :: (cargs as ++ .rp :: [.arr n])) := by
    simp only [cstr, h1, List.append_nil, List.nil_append]
    have := emit_fnptr b k 0 (.lp :: (cargs as ++ .rp :: [.arr n])) x
    simp only [stars, List.replicate_zero, List.nil_append, List.append_assoc, List.cons_append] at this ⊢
    exact this
  have h3 := dec_name (x := x) (suf_stop (ts := .rp :: .lp :: (cargs as ++ .rp :: [.arr n])) trivial)
  have h4 := dec_paren (dec_star h3) (suf_fn (read_args as ha [.arr n]) (suf_arr (k := n) (suf_stop (ts := []) trivial)))
  have h5 := decl_rule (s := b) (dec_stars h4 k)
  rw [hs]
  refine ⟨⟨build (ptrs k) (.base b), h5⟩, not_declares h5 (.inl ?_)⟩
  simp only [cty]
  show CTy.ptr _ ≠ _
  intro e; cases e

theorem declr_stars_none {ts : List Tok} {N : Nat} (h : ∀ f, N ≤ f → declr f ts = none) : ∀ k f, N + k ≤ f → declr f (stars k ++ ts) = none
  | 0, f, hf => h f (by omega)
  | k + 1, 0, hf => by omega
  | k + 1, f + 1, hf => by
    show declr (f + 1) (.star :: (stars k ++ ts)) = none
    simp only [declr]
    rw [declr_stars_none h k f (by omega)]; rfl

/-- A function pointer that returns a function pointer is not a declaration of C: `int (*x)(int) (*)(float)`. -/
theorem function_result_violated (as bs : Tys) (r : Ty) (x : Nat) (hr : simple r = true) (hb : goods bs = true) (u : CTy) :
    ¬ Declares (emit (cstr [] (.fn as (.fn bs r))) x) x u := by
  obtain ⟨b, k, h1, h2, _⟩ := simple_cstr r hr
  have hs : emit (cstr [] (.fn as (.fn bs r))) x = .id b :: stars k ++ .lp :: .star :: (.id x :: .rp :: .lp :: (cargs bs ++ .rp :: .lp :: .star :: .rp :: .lp :: (cargs as ++ [.rp]))) := by
    simp only [cstr, h1, List.append_nil]
    have := emit_fnptr b k 0 (.lp :: (cargs bs ++ .rp :: .lp :: .star :: .rp :: .lp :: (cargs as ++ [.rp]))) x
    simp only [stars, List.replicate_zero, List.nil_append, List.append_assoc, List.cons_append] at this ⊢
    exact this
  rw [hs]
  intro hd
  -- behind the first parameters stands `(*)`, which is not the beginning of parameters
  obtain ⟨n, hd⟩ := hd
  obtain ⟨n1, p1⟩ := read_args bs hb (.lp :: .star :: .rp :: .lp :: (cargs as ++ [.rp]))
  have hbad : ∀ f ts, suffix f (.lp :: .star :: ts) = none := by
    intro f ts
    match f with
    | 0 => simp only [suffix]
    | 1 => simp only [suffix, params]; rfl
    | 2 => simp only [suffix, params, decl]; rfl
    | f + 3 =>
      simp only [suffix, params, decl]; rfl
  have hp : ∀ f, n1 + 5 ≤ f → declr f (.lp :: .star :: (.id x :: .rp :: .lp :: (cargs bs ++ .rp :: .lp :: .star :: .rp :: .lp :: (cargs as ++ [.rp])))) = none := by
    intro f hf
    match f, hf with
    | 0, hf => omega
    | 1, hf => omega
    | 2, hf => omega
    | 3, hf => omega
    | 4, hf => omega
    | f + 5, hf =>
      rw [declr]
      simp only [declr, suffix, Option.bind_eq_bind, Option.bind_some]
      rw [p1 (f + 3) (by omega)]
      have := hbad (f + 3) (.rp :: .lp :: (cargs as ++ [.rp]))
      simp only [Option.bind_some, this]; rfl
  have := hd (n + n1 + k + 7) (by omega)
  simp only [List.cons_append, decl] at this
  rw [declr_stars_none hp k _ (by omega)] at this
  cases this

/-- A function that returns a pointer to a function pointer is not a declaration of C: `int (**)(int) f(void)`. -/
theorem pointer_result_violated (as : Tys) (r : Ty) (x : Nat) (hr : simple r = true) (ha : goods as = true) (hf : findFn (cargs as ++ [.rp]) = none) (u : CTy) :
    ¬ Declares (sig (.ptr (.fn as r)) x []) x u := by
  obtain ⟨b, j, h1, h2, _⟩ := simple_cstr r hr
  have hs : cstr [] (.ptr (.fn as r)) = .id b :: stars j ++ .lp :: .star :: .star :: .rp :: .lp :: (cargs as ++ [.rp]) := by
    simp only [cstr, h1, List.append_nil, cptr]
    have := findPtr_pre b j (.rp :: .lp :: (cargs as ++ [.rp]))
    simp only [List.append_assoc, List.cons_append] at this ⊢
    rw [this]
    simp only [List.cons_append, List.append_assoc]
  have hn : findFn (.id b :: stars j ++ .lp :: .star :: .star :: .rp :: .lp :: (cargs as ++ [.rp])) = none := by
    have g0 : findFn (.lp :: (cargs as ++ [.rp])) = none ∨ ∃ ts, cargs as ++ [.rp] = .star :: .rp :: ts := by
      by_cases h : ∃ ts, cargs as ++ [.rp] = .star :: .rp :: ts
      · exact .inr h
      · refine .inl ?_
        rw [findFn]
        · rw [hf]; rfl
        · intro r' _ he
          exact h ⟨r', he⟩
    have g1 : findFn (.lp :: .star :: .star :: .rp :: .lp :: (cargs as ++ [.rp])) = none := by
      have g2 : findFn (.lp :: (cargs as ++ [.rp])) = none := by
        rcases g0 with g | ⟨ts, g⟩
        · exact g
        · exfalso
          cases as with
          | nil => simp only [cargs] at g; cases g
          | cons t q =>
            simp only [goods, Bool.and_eq_true] at ha
            have hh : ∃ s ts, cstr [] t = .id s :: ts := by
              rcases good_cases ha.1 with ⟨h, _⟩ | h
              · obtain ⟨b, k, ns, e, _⟩ := arrays_cstr t h; exact ⟨_, _, e []⟩
              · obtain ⟨b, j, k, e, _⟩ := fnptr_cstr t h; exact ⟨_, _, e⟩
            obtain ⟨s, ts', e⟩ := hh
            cases q <;> (simp only [cargs, e] at g; cases g)
      simp only [findFn, g2, Option.map_none]
    have g3 : ∀ j, findFn (stars j ++ .lp :: .star :: .star :: .rp :: .lp :: (cargs as ++ [.rp])) = none := by
      intro j
      induction j with
      | zero => exact g1
      | succ j ih =>
        show (findFn (stars j ++ _)).map _ = none
        rw [ih]; rfl
    show (findFn (stars j ++ _)).map _ = none
    rw [g3]; rfl
  have h3 : Decl (.id b :: stars j ++ .lp :: .star :: (stars 1 ++ (nm none ++ .rp :: .lp :: (cargs as ++ .rp :: (.id x :: .lp :: .id 0 :: [.rp])))))
      (build (ptrs 2 ++ .fn (ctys as) :: ptrs j) (.base b)) none (.id x :: .lp :: .id 0 :: [.rp]) :=
    read_fnptr b j 1 none trivial (read_args as ha _)
  have hsig : sig (.ptr (.fn as r)) x [] = .id b :: stars j ++ .lp :: .star :: (stars 1 ++ (nm none ++ .rp :: .lp :: (cargs as ++ .rp :: (.id x :: .lp :: .id 0 :: [.rp])))) := by
    unfold sig
    rw [hs, hn]
    simp [eargs, stars, nm]
  rw [hsig]
  exact not_declares h3 (.inr (by simp))

/-- The hypotheses of `pointer_result_violated` are met by `fn*(int, char*) -> int`. -/
theorem pointer_result_sample : goods (.cons (.base 1) (.cons (.ptr (.base 2)) .nil)) = true ∧ findFn (cargs (.cons (.base 1) (.cons (.ptr (.base 2)) .nil)) ++ [.rp]) = none := by
  decide

end Verif.CDecl
