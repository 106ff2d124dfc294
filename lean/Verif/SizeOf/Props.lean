import Verif.SizeOf.Model

/-! # `sizeof` and `typeof`: properties (C185) -/

namespace Verif.SizeOf
open Verif Alias Alias.Spec Spec

theorem mapWord_id {w : String} (h : w ∉ notC) (hl : w ∉ loose) (hs : w ≠ "string") : mapWord w = [.ident w] := by
  unfold mapWord
  split <;> first | rfl | exact absurd (by decide) h | exact absurd (by decide) hl | exact absurd rfl hs

theorem operand_type {out : List Tok → List Tok} {X : ExprRd} {al : Table} {fuel : Nat} {ts rest : List Tok} {t : Ty}
    (h : read al fuel ts = .ok (t, .rp :: rest)) (hu : t ≠ .unknown) :
    operand out X al fuel (.lp :: ts) = .ok (out (print t), rest) := by
  rw [operand]
  simp only [h, Res.ok_bind]

/-- a simple type with stars, sizes and `const`; the sizes other than 0 -/
theorem data_not_unknown (c : Bool) (b : Base) (s : Nat) (ds : List Nat) : (Q.data c b s ds).ty ≠ .unknown := by
  cases c
  · cases ds with
    | nil =>
        cases s with
        | zero => cases b <;> simp [Q.ty, constIf, ptrs, Base.ty]
        | succ s => simp [Q.ty, constIf, ptrs]
    | cons d ds => simp [Q.ty, constIf]
  · simp [Q.ty, constIf]

/-- the words printed for a simple type -/
def pwords : Base → List Tok
  | .prim p => (primText p).map .ident
  | .named n => [.ident n]

theorem print_stars (b : Base) : ∀ (s : Nat) (ds : List Nat),
    printD (ptrs s b.ty) ds = pwords b ++ (List.replicate s .star ++ dimToks ds)
  | 0, ds => by cases b <;> simp [ptrs, Base.ty, printD, pwords]
  | s + 1, ds => by
      simp only [ptrs, printD, print_stars b s []]
      have : List.replicate (s + 1) Tok.star = List.replicate s Tok.star ++ [Tok.star] := List.replicate_succ'
      simp [dimToks, this]

theorem print_data (c : Bool) (b : Base) (s : Nat) (ds : List Nat) (h : ∀ d ∈ ds, d ≠ 0) :
    print (Q.data c b s ds).ty = constToks c ++ pwords b ++ (List.replicate s .star ++ dimToks ds) := by
  rw [print, Q.ty, print_const, print_arrs _ _ _ h, print_stars]
  simp

theorem mapText_two (a b : Tok) (l : List Tok) : mapText (a :: b :: l) = a :: b :: l := by
  cases a <;> rfl

/-- the text of a type alone -/
theorem mapText_base (G : String → Option Ty) (b : Base)
    (hn : ∀ n, b = .named n → G n = none ∧ n ∉ notC ∧ n ∉ loose ∧ n ≠ "string") : CBase G b (mapText (pwords b)) := by
  cases b with
  | named n =>
      obtain ⟨h1, h2, h3, h4⟩ := hn n rfl
      rw [show mapText (pwords (.named n)) = mapWord n from rfl, mapWord_id h2 h3 h4]
      exact .named n h1 h2 h3
  | prim p =>
      cases p
      case str => exact .string
      case cInt => exact .cInt
      case cUint => exact .cUint
      case cLong => exact .cLong
      case cUlong => exact .cUlong
      case cLongLong => exact .cLongLong
      case cUlongLong => exact .cUlongLong
      case cShort => exact .cShort
      case cUshort => exact .cUshort
      case cChar => exact .cChar
      case cUchar => exact .cUchar
      all_goals exact .prim _ (by decide)

/-- the word printed for a type, with more around it -/
theorem pwords_base (G : String → Option Ty) (b : Base) (hz : ∀ p ∈ cKinds, b ≠ .prim p)
    (hn : ∀ n, b = .named n → G n = none ∧ n ∉ notC ∧ n ∉ loose ∧ n ≠ "string") : CBase G b (pwords b) := by
  cases b with
  | named n => exact .named n (hn n rfl).1 (hn n rfl).2.1 (hn n rfl).2.2.1
  | prim p => exact .prim p (fun h => hz p h rfl)

/-- C185 (partial): the operand of `sizeof` may be any simple type, with stars, array sizes and `const`:
C takes the text for that type.  Missing: `c_int` and so on with stars, sizes or `const`
(`c_kind_violated`), function pointers and slices. -/
theorem sizeof_type_partial (G : String → Option Ty) (X : ExprRd) (al : Table) (fuel : Nat) (ts rest : List Tok)
    (c : Bool) (b : Base) (s : Nat) (ds : List Nat) (hd : ∀ d ∈ ds, d ≠ 0)
    (hr : read al fuel ts = .ok ((Q.data c b s ds).ty, .rp :: rest))
    (hn : ∀ n, b = .named n → G n = none ∧ n ∉ notC ∧ n ∉ loose ∧ n ≠ "string")
    (hc : (∀ p ∈ cKinds, b ≠ .prim p) ∨ (c = false ∧ s = 0 ∧ ds = [])) :
    ∃ out, sizeofExpr X al fuel (.lp :: ts) = .ok (out, rest) ∧ Means G out (Q.data c b s ds).ty := by
  refine ⟨_, operand_type hr (data_not_unknown _ _ _ _), ?_⟩
  rw [print_data c b s ds hd]
  by_cases ho : c = false ∧ s = 0 ∧ ds = []
  · obtain ⟨rfl, rfl, rfl⟩ := ho
    refine .type false b _ 0 [] (mapText_base G b hn) _ ?_
    simp [constToks, dimToks]
  · have hz : ∀ p ∈ cKinds, b ≠ .prim p := by
      rcases hc with h | h
      · exact h
      · exact absurd h ho
    refine .type c b _ s ds (pwords_base G b hz hn) _ ?_
    have hlen : 2 ≤ (constToks c ++ pwords b ++ (List.replicate s Tok.star ++ dimToks ds)).length := by
      have hp : 1 ≤ (pwords b).length := by
        cases b with
        | named n => simp [pwords]
        | prim p => cases p <;> simp [pwords, primText]
      cases c
      · cases s with
        | succ s => simp; omega
        | zero =>
            cases ds with
            | nil => exact absurd ⟨rfl, rfl, rfl⟩ ho
            | cons d ds => simp [dimToks]; omega
      · simp [constToks]; omega
    generalize constToks c ++ pwords b ++ (List.replicate s Tok.star ++ dimToks ds) = l at hlen ⊢
    match l, hlen with
    | a :: a' :: l, _ => exact mapText_two a a' l

theorem read_var {al : Table} {x : String} (h : (Base.named x).Ok al) (ds : List Nat) (rest : List Tok)
    (hr : Stop rest) (f : Nat) (hf : 0 < f) (hz : ∀ d ∈ ds, d ≠ 0) :
    read al f (.ident x :: (dimToks ds ++ rest)) = .ok (ds.foldr Ty.arr (.named x), rest) :=
  read_q al (.data false (.named x) 0 ds) ⟨h, hz⟩ f (by simp only [Q.depth]; omega) rest hr

theorem means_index {G : String → Option Ty} {x : String} (ds sizes : List Nat) (t : Ty)
    (hl : ds.length = sizes.length) (hG : G x = some (sizes.foldr Ty.arr t)) : Means G (.ident x :: dimToks ds) t := by
  have gen : ∀ (ds sizes : List Nat) (ts : List Tok), ds.length = sizes.length →
      Means G ts (sizes.foldr Ty.arr t) → Means G (ts ++ dimToks ds) t := by
    intro ds
    induction ds with
    | nil =>
        intro sizes ts hl h
        cases sizes with
        | nil => simpa [dimToks] using h
        | cons _ _ => cases hl
    | cons d ds ih =>
        intro sizes ts hl h
        cases sizes with
        | nil => cases hl
        | cons s sizes =>
            have := ih sizes (ts ++ [.lbrack, .num d, .rbrack]) (by simpa using hl) (.index ts d s _ h)
            simpa [dimToks] using this
  exact gen ds sizes [.ident x] hl (.var x _ hG)

/-- C185 (partial): `sizeof(x)` and `sizeof(x[n])..` with numbers other than 0 are the sizes of the
variable and of its element.  Missing: `index_zero_violated`, `index_expr_violated`. -/
theorem sizeof_variable_partial (G : String → Option Ty) (X : ExprRd) (al : Table) (fuel : Nat) (x : String)
    (hx : (Base.named x).Ok al) (hl' : x ∉ loose) (ds sizes : List Nat) (t : Ty) (hl : ds.length = sizes.length)
    (hG : G x = some (sizes.foldr Ty.arr t)) (hz : ∀ d ∈ ds, d ≠ 0) (hf : 0 < fuel) (rest : List Tok) :
    ∃ out, sizeofExpr X al fuel (.lp :: .ident x :: (dimToks ds ++ .rp :: rest)) = .ok (out, rest) ∧ Means G out t := by
  have hr := read_var hx ds (.rp :: rest) (by intro r; simp) fuel hf hz
  have hq : (Q.data false (.named x) 0 ds).ty = ds.foldr Ty.arr (.named x) := rfl
  refine ⟨_, operand_type hr (by rw [← hq]; exact data_not_unknown _ _ _ _), ?_⟩
  rw [← hq, print_q al (.data false (.named x) 0 ds) ⟨hx, hz⟩]
  have hw : x ∉ notC := bword_notC (al := al) (b := .named x) hx (by simp)
  have e : mapText (toks (.data false (.named x) 0 ds)) = .ident x :: dimToks ds := by
    cases ds with
    | nil => exact mapWord_id hw hl' (fun e : x = "string" => by have h1 : primOf x = none := hx.2.1; rw [e] at h1; cases h1)
    | cons d ds => rfl
  rw [e]
  exact means_index ds sizes t hl hG

/-- C185: whatever stops before the closing parenthesis when it is read as a type, or is no type at all,
is an expression. -/
theorem sizeof_expr (X : ExprRd) (al : Table) (fuel : Nat) (ts r rest : List Tok) (t : Ty) (e : List Tok)
    (hr : read al fuel ts = .ok (t, r)) (hs : t = .unknown ∨ ∀ r', r ≠ .rp :: r') (hx : X ts = .ok (e, .rp :: rest)) :
    sizeofExpr X al fuel (.lp :: ts) = .ok (e, rest) := by
  rw [sizeofExpr, operand]
  simp only [hr, Res.ok_bind, hx]
  split
  · rfl
  · rename_i h1
    rcases hs with rfl | hs
    · exact (h1 rfl).elim
    · exact absurd rfl (hs _)
  · rfl

/-! ## Where it does not hold -/

theorem slice_head (x : String) : ("Slice_" ++ x).toList.head? = some 'S' := by
  rw [String.toList_append]
  rfl

theorem slice_ne {w x : String} (h : w.toList.head? ≠ some 'S') : "Slice_" ++ x ≠ w := fun e => h (e ▸ slice_head x)

theorem slice_notin {ws : List String} {x : String} (h : ∀ w ∈ ws, w.toList.head? ≠ some 'S') : "Slice_" ++ x ∉ ws :=
  fun hm => h _ hm (slice_head x)

theorem cbase_slice {G : String → Option Ty} {p : Prim} {bt : List Tok} (h : CBase G (.prim p) bt) (x : String) :
    bt ≠ [.ident ("Slice_" ++ x)] := by
  intro e
  cases h with
  | prim _ h =>
      revert e
      cases p <;> simp only [primText, List.map_cons, List.map_nil, List.cons.injEq, Tok.ident.injEq, and_true, reduceCtorEq, and_false] <;>
        first | exact fun e => e.elim | exact fun e => slice_ne (by decide) e.symm
  | _ =>
      simp only [List.cons.injEq, Tok.ident.injEq, and_true, reduceCtorEq, and_false] at e
      try exact slice_ne (by decide) e.symm

/-- C185 refuted: `sizeof(x[0])`, as in `sizeof(x) / sizeof(x[0])`, is taken for the size of the slice type
`Slice_x`, which is not the type of the element. -/
theorem index_zero_violated (G : String → Option Ty) (X : ExprRd) (al : Table) (x : String)
    (hx : (Base.named x).Ok al) (n : Nat) (rest : List Tok) (p : Prim) (hS : G ("Slice_" ++ x) = none) :
    ∃ out, sizeofExpr X al (n + 1) (.lp :: .ident x :: .lbrack :: .num 0 :: .rbrack :: .rp :: rest) = .ok (out, rest) ∧
      out = [.ident ("Slice_" ++ x)] ∧ ¬ Means G out (.prim p) := by
  have hk := (bword_facts hx).2.1
  have hr : read al (n + 1) (.ident x :: .lbrack :: .num 0 :: .rbrack :: .rp :: rest)
      = .ok (.arr 0 (.named x), .rp :: rest) := by
    rw [read_plain al n _ (by intro r e; injection e with e; injection e with e; exact hk (by rw [show bword (.named x) = x from rfl, e]; decide))
      (by intro r e; injection e with e; injection e with e; exact hk (by rw [show bword (.named x) = x from rfl, e]; decide))]
    refine body_data (t := .named x) 0 [0] (by intro r; simp) ?_
    rw [show Tok.ident x = Tok.ident (bword (.named x)) from rfl, core_word hk]
    exact name_base hx _
  refine ⟨[.ident ("Slice_" ++ x)], ?_, rfl, ?_⟩
  · rw [sizeofExpr, operand_type hr (by simp)]
    show Res.ok (mapText [.ident ("Slice_" ++ x)], rest) = _
    rw [show mapText [.ident ("Slice_" ++ x)] = mapWord ("Slice_" ++ x) from rfl,
      mapWord_id (slice_notin (by decide)) (slice_notin (by decide)) (slice_ne (by decide))]
  · intro h
    generalize ho : [Tok.ident ("Slice_" ++ x)] = out at h
    generalize ht : Ty.prim p = t at h
    cases h with
    | type c b bt s ds hb ts e =>
        subst e
        cases c
        · cases ds with
          | cons _ _ => simp [constIf] at ht
          | nil =>
              cases s with
              | succ s => simp [constIf, ptrs] at ht
              | zero =>
                  cases b with
                  | named m => simp [constIf, ptrs, Base.ty] at ht
                  | prim p' => exact cbase_slice hb x (by simpa [constToks, dimToks] using ho.symm)
        · simp [constIf] at ht
    | var y t hy =>
        injection ho with h1 _
        injection h1 with h1
        rw [← h1, hS] at hy
        cases hy
    | index ts n d t h' =>
        have := congrArg List.length ho
        simp at this

/-- C185 refuted: `sizeof(x[i])` with a variable as index is rejected by the compiler. -/
theorem index_expr_violated (X : ExprRd) (al : Table) (x i : String) (hx : (Base.named x).Ok al) (n : Nat)
    (rest : List Tok) : sizeofExpr X al (n + 1) (.lp :: .ident x :: .lbrack :: .ident i :: rest) = .panic := by
  have hk := (bword_facts hx).2.1
  have hr : read al (n + 1) (.ident x :: .lbrack :: .ident i :: rest) = .panic := by
    rw [read_plain al n _ (by intro r e; injection e with e; injection e with e; exact hk (by rw [show bword (.named x) = x from rfl, e]; decide))
      (by intro r e; injection e with e; injection e with e; exact hk (by rw [show bword (.named x) = x from rfl, e]; decide))]
    rw [body, show Tok.ident x = Tok.ident (bword (.named x)) from rfl, core_word hk]
    have := name_base (P := read al n) hx (.lbrack :: .ident i :: rest)
    simp only [bword] at this
    rw [show bword (.named x) = x from rfl] at *
    rw [this]
    rfl
  rw [sizeofExpr, operand]
  simp only [hr]
  rfl

/-- C185 refuted: the text of a pointer to one of `c_int`, `c_long` and so on, and of `typeof` of one of
them, has a word that C does not know. -/
theorem c_kind_violated (X : ExprRd) (p : Prim) (hp : p ∈ cKinds) (n : Nat) (rest : List Tok) :
    ∃ w ∈ notC,
      sizeofExpr X [] (n + 1) (.lp :: .ident w :: .star :: .rp :: rest) = .ok ([.ident w, .star], rest) ∧
      typeofExpr X [] (n + 1) (.lp :: .ident w :: .rp :: rest) = .ok ([.ident w], rest) := by
  have hst : p ∈ stable := by revert hp; cases p <;> decide
  have hw : (primText p).headD "" ∈ notC := by revert hp; cases p <;> decide
  refine ⟨(primText p).headD "", hw, ?_, ?_⟩
  · have hok : (Q.data false (.prim p) 1 []).Ok [] := ⟨⟨hst, fun _ _ => rfl⟩, by simp⟩
    have hr := read_q [] _ hok (n + 1) (by simp [Q.depth]) (.rp :: rest) (by intro r; simp)
    have h := operand_type (out := mapText) (X := X) hr (data_not_unknown _ _ _ _)
    rw [print_q [] _ hok] at h
    exact h
  · have hok : (Q.data false (.prim p) 0 []).Ok [] := ⟨⟨hst, fun _ _ => rfl⟩, by simp⟩
    have hr := read_q [] _ hok (n + 1) (by simp [Q.depth]) (.rp :: rest) (by intro r; simp)
    have h := operand_type (out := id) (X := X) hr (data_not_unknown _ _ _ _)
    rw [print_q [] _ hok] at h
    exact h

/-- `sizeof(a[2])` where `a` is an array of 8 arrays of 3 bytes, and `sizeof(c_ulong)` -/
example : (∃ out, sizeofExpr (fun _ => .panic) [] 1 [.lp, .ident "a", .lbrack, .num 2, .rbrack, .rp] = .ok (out, []) ∧
      Means (fun x => if x = "a" then some (.arr 8 (.arr 3 (.prim .u8))) else none) out (.arr 3 (.prim .u8))) ∧
    sizeofExpr (fun _ => .panic) [] 1 [.lp, .ident "c_ulong", .rp] = .ok ([.ident "unsigned", .ident "long"], []) :=
  ⟨sizeof_variable_partial _ _ [] 1 "a" ⟨rfl, by decide +kernel, by decide⟩ (by decide) [2] [8] _ rfl rfl (by simp) (by decide) [],
    by decide +kernel⟩

end Verif.SizeOf
