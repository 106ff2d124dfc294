import Verif.Alias.Model

/-! # Aliases of types: properties (C184) -/

namespace Verif.Alias
open Verif Spec

/-! ## The printed text -/

/-- the word of a simple type -/
def bword : Base → String
  | .prim p => (primText p).headD ""
  | .named n => n

theorem primText_stable {p : Prim} (h : p ∈ stable) : primText p = [(primText p).headD ""] := by
  revert h; cases p <;> decide

theorem primOf_stable {p : Prim} (h : p ∈ stable) : primOf ((primText p).headD "") = some p := by
  revert h; cases p <;> decide +kernel

theorem stable_word {p : Prim} (h : p ∈ stable) : (primText p).headD "" ∉ keywords := by
  revert h; cases p <;> decide

theorem bword_facts {al : Table} {b : Base} (h : b.Ok al) :
    find al (bword b) = none ∧ bword b ∉ keywords ∧
      (match primOf (bword b) with | some p => Ty.prim p | none => Ty.named (bword b)) = b.ty := by
  cases b with
  | prim p =>
      obtain ⟨h1, h2⟩ := h
      refine ⟨h2 _ ?_, stable_word h1, ?_⟩
      · rw [primText_stable h1]; simp [bword]
      · show (match primOf ((primText p).headD "") with | some p => Ty.prim p | none => _) = _
        rw [primOf_stable h1]; rfl
  | named n =>
      obtain ⟨h1, h2, h3⟩ := h
      exact ⟨h1, h3, by simp [bword, h2, Base.ty]⟩

/-- `const` -/
def constToks (c : Bool) : List Tok := if c then [.ident "const"] else []

mutual
/-- the text -/
def toks : Q → List Tok
  | .data c b s ds => constToks c ++ .ident (bword b) :: (List.replicate s .star ++ dimToks ds)
  | .fn c as r => constToks c ++ .ident "fn" :: .star :: .lp :: (argToks as ++ .rp :: .arrow :: toks r)
def argToks : Qs → List Tok
  | .nil => []
  | .cons q .nil => toks q
  | .cons q qs => toks q ++ .comma :: argToks qs
end

theorem print_ptrs {al : Table} {b : Base} (hb : b.Ok al) : ∀ (s : Nat) (ds : List Nat),
    printD (ptrs s b.ty) ds = .ident (bword b) :: (List.replicate s .star ++ dimToks ds)
  | 0, ds => by
      cases b with
      | prim p => simp only [ptrs, Base.ty, printD]; rw [primText_stable hb.1]; simp [bword]
      | named n => simp [ptrs, Base.ty, printD, bword]
  | s + 1, ds => by
      simp only [ptrs, printD, print_ptrs hb s []]
      have : List.replicate (s + 1) Tok.star = List.replicate s Tok.star ++ [Tok.star] := List.replicate_succ'
      simp [dimToks, this]

theorem print_arrs (t : Ty) : ∀ (ds acc : List Nat), (∀ d ∈ ds, d ≠ 0) →
    printD (ds.foldr Ty.arr t) acc = printD t (acc ++ ds)
  | [], acc, _ => by simp
  | 0 :: ds, acc, h => absurd rfl (h 0 (by simp))
  | (d + 1) :: ds, acc, h => by
      rw [List.foldr_cons, printD, print_arrs t ds _ (fun x hx => h x (by simp [hx]))]
      simp

theorem print_const (c : Bool) (t : Ty) : printD (constIf c t) [] = constToks c ++ printD t [] := by
  cases c <;> simp [constIf, constToks, printD, dimToks]

mutual
theorem print_q (al : Table) : ∀ (q : Q), q.Ok al → print q.ty = toks q
  | .data c b s ds, h => by
      rw [print, Q.ty, print_const, print_arrs _ _ _ h.2, print_ptrs h.1]
      simp [toks]
  | .fn c as r, h => by
      have h1 := print_args al as h.1
      have h2 := print_q al r h.2
      rw [print] at h2
      rw [print, Q.ty, print_const, printD, h1, h2]
      simp [toks, dimToks]
theorem print_args (al : Table) : ∀ (qs : Qs), qs.Ok al → printArgs qs.tys = argToks qs
  | .nil, _ => rfl
  | .cons q .nil, h => by
      have h1 := print_q al q h.1
      rw [print] at h1
      simp [Qs.tys, printArgs, argToks, h1]
  | .cons q (.cons q' qs), h => by
      have h1 := print_q al q h.1
      rw [print] at h1
      have h2 := print_args al (.cons q' qs) h.2
      simp only [Qs.tys] at h2 ⊢
      simp only [printArgs, argToks, h1]
      rw [← h2]
end

/-! ## Reading it back -/

/-- nothing that would belong to the type -/
def Stop (rest : List Tok) : Prop := ∀ r, rest ≠ .star :: r ∧ rest ≠ .lbrack :: r

theorem dims_stop {rest : List Tok} (h : Stop rest) : dims rest = .ok ([], rest) := by
  unfold dims
  split
  · exact absurd rfl (h _).2
  · exact absurd rfl (h _).2
  · exact absurd rfl (h _).2
  · rfl

theorem dims_toks {rest : List Tok} (h : Stop rest) : ∀ (ds : List Nat),
    dims (dimToks ds ++ rest) = .ok (ds, rest)
  | [] => dims_stop h
  | d :: ds => by
      simp only [dimToks, List.cons_append, dims, dims_toks h ds, Res.ok_bind]

theorem stars_stop {t : Ty} {rest : List Tok} (h : ∀ r, rest ≠ .star :: r) : stars t rest = (t, rest) := by
  unfold stars
  split
  · exact absurd rfl (h _)
  · rfl

theorem ptrs_ptr (t : Ty) : ∀ s, ptrs s (.ptr t) = .ptr (ptrs s t)
  | 0 => rfl
  | s + 1 => by rw [ptrs, ptrs_ptr t s]; rfl

theorem stars_toks {rest : List Tok} (h : ∀ r, rest ≠ .star :: r) : ∀ (s : Nat) (t : Ty),
    stars t (List.replicate s .star ++ rest) = (ptrs s t, rest)
  | 0, t => stars_stop h
  | s + 1, t => by
      rw [List.replicate_succ, List.cons_append, stars, stars_toks h s, ptrs_ptr]; rfl

theorem dimToks_head (ds : List Nat) {rest : List Tok} (h : Stop rest) : ∀ r, dimToks ds ++ rest ≠ .star :: r := by
  intro r
  cases ds with
  | nil => exact (h r).1
  | cons d ds => simp [dimToks]

/-- the part behind `const` and `restrict` -/
def body (P : Rd) (al : Table) (wrap : Ty → Ty) (ts : List Tok) : Res (Ty × List Tok) := do
  let (t, r) ← core P al ts
  let (t, r) := stars t r
  let (ds, r) ← dims r
  .ok (wrap (ds.foldr Ty.arr t), r)

theorem read_const (al : Table) (n : Nat) (ts : List Tok) :
    read al (n + 1) (.ident "const" :: ts) = body (read al n) al Ty.const ts := by
  rw [read]; rfl

theorem read_plain (al : Table) (n : Nat) (ts : List Tok) (h1 : ∀ r, ts ≠ .ident "restrict" :: r)
    (h2 : ∀ r, ts ≠ .ident "const" :: r) : read al (n + 1) ts = body (read al n) al id ts := by
  rw [read]
  · rfl
  · exact fun r e => h1 r e
  · exact fun r e => h2 r e

/-- what comes before the stars, and the rest -/
theorem body_data {P : Rd} {al : Table} {wrap : Ty → Ty} {ts rest : List Tok} {t : Ty} (s : Nat) (ds : List Nat)
    (hr : Stop rest)
    (hc : core P al ts = .ok (t, List.replicate s .star ++ (dimToks ds ++ rest))) :
    body P al wrap ts = .ok (wrap (ds.foldr Ty.arr (ptrs s t)), rest) := by
  have h1 := stars_toks (dimToks_head ds hr) s t
  have h2 := dims_toks hr ds
  simp only [body, hc, Res.ok_bind, h1, h2]

theorem core_word {P : Rd} {al : Table} {w : String} (h : w ∉ keywords) (r : List Tok) :
    core P al (.ident w :: r) = name P al w r := by
  have hf : w ≠ "fn" := by rintro rfl; exact h (by decide)
  have hs : ¬ (w = "struct" ∨ w = "enum") := by
    rintro (rfl | rfl) <;> exact h (by decide)
  unfold core
  split
  · rename_i e; cases e; exact absurd rfl hf
  · show (if w = "struct" ∨ w = "enum" then _ else name P al w r) = _
    rw [if_neg hs]

theorem name_base {P : Rd} {al : Table} {b : Base} (hb : b.Ok al) (r : List Tok) :
    name P al (bword b) r = .ok (b.ty, r) := by
  obtain ⟨h1, _, h3⟩ := bword_facts hb
  rw [name, h1]
  simp only
  cases hp : primOf (bword b) with
  | none => rw [hp] at h3; simp only at h3 ⊢; rw [h3]
  | some p => rw [hp] at h3; simp only at h3 ⊢; rw [h3]

theorem read_wrapped (al : Table) (n : Nat) (c : Bool) (ts : List Tok) {t : Ty} {rest : List Tok}
    (h1 : ∀ r, ts ≠ .ident "restrict" :: r) (h2 : ∀ r, ts ≠ .ident "const" :: r)
    (hb : ∀ wrap, body (read al n) al wrap ts = .ok (wrap t, rest)) :
    read al (n + 1) (constToks c ++ ts) = .ok (constIf c t, rest) := by
  cases c with
  | true =>
      show read al (n + 1) (.ident "const" :: ts) = _
      rw [read_const, hb]; rfl
  | false =>
      show read al (n + 1) ts = _
      rw [read_plain al n ts h1 h2, hb]; rfl

theorem toks_head (q : Q) : ∃ w r, toks q = .ident w :: r := by
  cases q with
  | data c b s ds => cases c <;> exact ⟨_, _, rfl⟩
  | fn c as r => cases c <;> exact ⟨_, _, rfl⟩

/-- number of parameters -/
def Spec.Qs.len : Qs → Nat
  | .nil => 0
  | .cons _ qs => qs.len + 1

theorem argToks_len : ∀ (qs : Qs), qs.len ≤ (argToks qs).length
  | .nil => by simp [Qs.len]
  | .cons q .nil => by
      obtain ⟨w, r, e⟩ := toks_head q
      simp [Qs.len, argToks, e]
  | .cons q (.cons q' qs) => by
      have := argToks_len (.cons q' qs)
      simp only [Qs.len, argToks, List.length_append, List.length_cons] at this ⊢
      omega

mutual
/-- the text of a type is read as that type -/
theorem read_q (al : Table) : ∀ (q : Q), q.Ok al → ∀ (n : Nat), q.depth ≤ n → ∀ rest, Stop rest →
    read al n (toks q ++ rest) = .ok (q.ty, rest)
  | .data c b s ds, h, n, hn, rest, hr => by
      obtain ⟨n, rfl⟩ : ∃ m, n = m + 1 := ⟨n - 1, by simp only [Q.depth] at hn; omega⟩
      obtain ⟨_, hk, _⟩ := bword_facts h.1
      rw [toks, List.append_assoc, Q.ty]
      apply read_wrapped
      · intro r e; injection e with e; injection e with e; exact hk (by rw [e]; decide)
      · intro r e; injection e with e; injection e with e; exact hk (by rw [e]; decide)
      · intro wrap
        refine body_data s ds hr ?_
        rw [List.cons_append, core_word hk, name_base h.1, List.append_assoc]
  | .fn c as r, h, n, hn, rest, hr => by
      obtain ⟨n, rfl⟩ : ∃ m, n = m + 1 := ⟨n - 1, by simp only [Q.depth] at hn; omega⟩
      simp only [Q.depth] at hn
      rw [toks, List.append_assoc, Q.ty]
      apply read_wrapped
      · intro r e; injection e with e; injection e with e; revert e; decide
      · intro r e; injection e with e; injection e with e; revert e; decide
      · intro wrap
        refine body_data 0 [] hr ?_
        have hret := read_q al r h.2 n (by omega) rest hr
        have hargs := read_args al as h.1 n (by omega) (argToks as ++ .rp :: .arrow :: (toks r ++ rest)).length
          (by have := argToks_len as; simp only [List.length_append]; omega) (.arrow :: (toks r ++ rest))
        have e : (Tok.ident "fn" :: .star :: .lp :: (argToks as ++ .rp :: .arrow :: toks r)) ++ rest
            = .ident "fn" :: .star :: .lp :: (argToks as ++ .rp :: .arrow :: (toks r ++ rest)) := by simp
        rw [e]
        show fnType (read al n) (.star :: .lp :: (argToks as ++ .rp :: .arrow :: (toks r ++ rest))) = _
        simp only [fnType, countStars, hargs, Res.ok_bind, ret, hret]
        rfl
theorem read_args (al : Table) : ∀ (qs : Qs), qs.Ok al → ∀ (n : Nat), qs.depth ≤ n → ∀ k, qs.len ≤ k → ∀ rest,
    args (read al n) k (argToks qs ++ .rp :: rest) = .ok (qs.tys, rest)
  | .nil, _, n, _, k, _, rest => by cases k <;> rfl
  | .cons q .nil, h, n, hn, k, hk, rest => by
      obtain ⟨k, rfl⟩ : ∃ m, k = m + 1 := ⟨k - 1, by simp only [Qs.len] at hk; omega⟩
      simp only [Qs.depth] at hn
      have h1 := read_q al q h.1 n (by omega) (.rp :: rest) (by intro r; simp)
      obtain ⟨w, r, e⟩ := toks_head q
      simp only [argToks]
      rw [e] at h1 ⊢
      rw [List.cons_append] at h1 ⊢
      simp only [args, h1, Res.ok_bind]
      cases k <;> rfl
  | .cons q (.cons q' qs), h, n, hn, k, hk, rest => by
      obtain ⟨k, rfl⟩ : ∃ m, k = m + 1 := ⟨k - 1, by simp only [Qs.len] at hk; omega⟩
      have hd : q.depth ≤ n := by simp only [Qs.depth] at hn; omega
      have h1 := read_q al q h.1 n hd (.comma :: (argToks (.cons q' qs) ++ .rp :: rest)) (by intro r; simp)
      have h2 := read_args al (.cons q' qs) h.2 n (by simp only [Qs.depth] at hn ⊢; omega) k
        (by simp only [Qs.len] at hk ⊢; omega) rest
      obtain ⟨w, r, e⟩ := toks_head q
      have e1 : argToks (.cons q (.cons q' qs)) ++ .rp :: rest
          = toks q ++ .comma :: (argToks (.cons q' qs) ++ .rp :: rest) := by simp [argToks]
      rw [e1]
      rw [e] at h1 ⊢
      rw [List.cons_append] at h1 ⊢
      simp only [args, h1, Res.ok_bind, h2]
      rfl
end

/-! ## The properties -/

theorem find_cons (al : Table) (a : String) (o : Bool) (t : List Tok) : find ((a, o, t) :: al) a = some (o, t) := by
  rw [find, if_pos rfl]

/-- C184 (partial): wherever a type may stand, also before stars, array sizes and behind `const`, an
alias is read as the type it was declared to be; an opaque one is that type under its own name.
The type may itself have been written with aliases.  Missing: types that are not of the shape `Q`
(see the violations). -/
theorem alias_means_partial (al al' : Table) (a : String) (o : Bool) (ts left : List Tok) (n : Nat) (q : Q)
    (hd : declare n al a o ts = .ok al') (hq : read al n ts = .ok (q.ty, left)) (hok : q.Ok al') (ha : a ∉ keywords)
    (c : Bool) (s : Nat) (ds : List Nat) (rest : List Tok) (hr : Stop rest) (m : Nat) (hm : q.depth < m) :
    read al' m (constToks c ++ .ident a :: (List.replicate s .star ++ (dimToks ds ++ rest)))
      = .ok (constIf c (ds.foldr Ty.arr (ptrs s (if o then .opq a q.ty else q.ty))), rest) := by
  have e : al' = (a, o, toks q) :: al := by
    simp only [declare, hq, Res.ok_bind, Res.ok.injEq] at hd
    rw [← hd, print_q al' q hok]
  obtain ⟨m, rfl⟩ : ∃ k, m = k + 1 := ⟨m - 1, by omega⟩
  apply read_wrapped
  · intro r e; injection e with e; injection e with e; exact ha (by rw [e]; decide)
  · intro r e; injection e with e; injection e with e; exact ha (by rw [e]; decide)
  · intro wrap
    refine body_data s ds hr ?_
    have h1 := read_q al' q hok m (by omega) [] (by intro r; simp)
    rw [List.append_nil] at h1
    have hf : find al' a = some (o, toks q) := by rw [e, find_cons]
    rw [core_word ha, name, hf]
    simp only [h1, Res.ok_bind]

/-- C184: other names keep their meaning. -/
theorem alias_only (al : Table) (a : String) (o : Bool) (t : List Tok) (n : String) (h : n ≠ a) :
    find ((a, o, t) :: al) n = find al n := by
  rw [find, if_neg (fun e => h e.symm)]

theorem bword_notC {al : Table} {b : Base} (h : b.Ok al) (hz : ∀ p ∈ cKinds, b ≠ .prim p) : bword b ∉ notC := by
  cases b with
  | prim p =>
      have hp : p ∉ cKinds := fun hm => hz p hm rfl
      revert hp
      cases p <;> decide
  | named n =>
      intro hm
      have hn : primOf n = none := h.2.1
      have hm' : n ∈ notC := hm
      have all : ∀ w ∈ notC, primOf w ≠ none := by decide +kernel
      exact all n hm' hn

/-- C184 (partial): the `typedef` of an alias is one C reads, if the type has no array, is no function
pointer and none of `c_int`, `c_long` and so on.  Missing: see `typedef_violated`. -/
theorem typedef_partial (al : Table) (c : Bool) (b : Base) (s : Nat) (h : b.Ok al) (hz : ∀ p ∈ cKinds, b ≠ .prim p) :
    TypedefOk (typedefText (Q.data c b s []).ty) := by
  rw [typedefText, print_q al (.data c b s []) ⟨h, fun _ h => by cases h⟩]
  refine ⟨(if c then ["const"] else []) ++ [bword b], s, by simp, ?_, ?_⟩
  · intro w hw
    rcases List.mem_append.mp hw with hw | hw
    · cases c
      · simp at hw
      · simp only [if_true, List.mem_singleton] at hw; rw [hw]; decide
    · simp only [List.mem_singleton] at hw; rw [hw]; exact bword_notC h hz
  · cases c <;> simp [toks, constToks, dimToks]

/-! ## Where it does not hold -/

theorem read_alias {al : Table} {a : String} {o : Bool} {t : List Tok} (h : find al a = some (o, t)) (ha : a ∉ keywords)
    (n : Nat) {rest : List Tok} (hr : Stop rest) :
    read al (n + 1) (.ident a :: rest) =
      (do let (u, _) ← read al n t
          .ok (if o then .opq a u else u, rest)) := by
  have h0 : read al (n + 1) (.ident a :: rest) = body (read al n) al id (.ident a :: rest) :=
    read_plain al n _ (by intro r e; injection e with e; injection e with e; exact ha (by rw [e]; decide))
      (by intro r e; injection e with e; injection e with e; exact ha (by rw [e]; decide))
  rw [h0, body, core_word ha, name, h]
  cases hu : read al n t with
  | ok v =>
      obtain ⟨u, r⟩ := v
      simp only [hu, Res.ok_bind, stars_stop (fun r => (hr r).1), dims_stop hr]
      rfl
  | panic => simp only [hu]; rfl
  | ub => simp only [hu]; rfl

/-- C184 refuted: an alias of `u128` is read as `u32`: values lose 96 bits without a message.  Aliases of
`i128` and `isize` are structs of an unknown name. -/
theorem wide_violated (al : Table) (a : String) (ha : a ∉ keywords ∧ a ∉ ["unsigned", "__int128", "ptrdiff_t"])
    (hw : ∀ w ∈ ["u128", "i128", "isize", "unsigned", "__int128", "ptrdiff_t"], find al w = none) (m : Nat)
    (rest : List Tok) (hr : Stop rest) :
    (∃ al', declare 1 al a false [.ident "u128"] = .ok al' ∧ read al' (m + 2) (.ident a :: rest) = .ok (.prim .u32, rest)) ∧
    (∃ al', declare 1 al a false [.ident "i128"] = .ok al' ∧
      read al' (m + 2) (.ident a :: rest) = .ok (.named "__int128", rest)) ∧
    (∃ al', declare 1 al a false [.ident "isize"] = .ok al' ∧
      read al' (m + 2) (.ident a :: rest) = .ok (.named "ptrdiff_t", rest)) := by
  have one : ∀ (al : Table) (w : String) (r : List Tok), w ∉ keywords → find al w = none → Stop r → ∀ n,
      read al (n + 1) (.ident w :: r) = .ok ((match primOf w with | some p => .prim p | none => .named w), r) := by
    intro al w r hk hf hr n
    have h0 : read al (n + 1) (.ident w :: r) = body (read al n) al id (.ident w :: r) :=
      read_plain al n _ (by intro r e; injection e with e; injection e with e; exact hk (by rw [e]; decide))
        (by intro r e; injection e with e; injection e with e; exact hk (by rw [e]; decide))
    rw [h0]
    refine body_data (t := match primOf w with | some p => .prim p | none => .named w) 0 [] hr ?_
    rw [core_word hk, name, hf]
    simp only
    cases primOf w <;> rfl
  have nil : Stop [] := by intro r; simp
  have idn : ∀ w r, Stop (.ident w :: r) := by intro w r r'; simp
  refine ⟨⟨(a, false, [.ident "unsigned", .ident "__int128"]) :: al, ?_, ?_⟩,
    ⟨(a, false, [.ident "__int128"]) :: al, ?_, ?_⟩, ⟨(a, false, [.ident "ptrdiff_t"]) :: al, ?_, ?_⟩⟩
  · rw [declare, one al "u128" [] (by decide) (hw _ (by simp)) nil 0]; rfl
  · rw [read_alias (find_cons _ _ _ _) ha.1 (m + 1) hr, one _ "unsigned" _ (by decide)
      (by rw [alias_only _ _ _ _ _ (by rintro rfl; exact ha.2 (by simp))]; exact hw _ (by simp)) (idn _ _) m]
    rfl
  · rw [declare, one al "i128" [] (by decide) (hw _ (by simp)) nil 0]; rfl
  · rw [read_alias (find_cons _ _ _ _) ha.1 (m + 1) hr, one _ "__int128" _ (by decide)
      (by rw [alias_only _ _ _ _ _ (by rintro rfl; exact ha.2 (by simp))]; exact hw _ (by simp)) nil m]
    rfl
  · rw [declare, one al "isize" [] (by decide) (hw _ (by simp)) nil 0]; rfl
  · rw [read_alias (find_cons _ _ _ _) ha.1 (m + 1) hr, one _ "ptrdiff_t" _ (by decide)
      (by rw [alias_only _ _ _ _ _ (by rintro rfl; exact ha.2 (by simp))]; exact hw _ (by simp)) nil m]
    rfl

/-- C184 refuted: a struct or union of an imported C header whose name is registered for its own text:
reading the name as a type never ends, however much stack there is. -/
theorem header_violated (al : Table) (kw : Option String) (n : String) (hn : n ∉ keywords)
    (hk : kw = none ∨ kw = some "struct") (rest : List Tok) (hr : Stop rest) :
    ∀ fuel, read (header al kw n) fuel (.ident n :: rest) = .panic := by
  have key : ∀ fuel, (∀ r, Stop r → read (header al kw n) fuel (.ident n :: r) = .panic) ∧
      read (header al kw n) fuel [.ident "struct", .ident n] = .panic := by
    intro fuel
    have nil : Stop [] := by intro r; simp
    induction fuel with
    | zero => exact ⟨fun _ _ => rfl, rfl⟩
    | succ f ih =>
        rcases hk with rfl | rfl
        · refine ⟨fun r hr => ?_, ?_⟩
          · rw [read_alias (al := header al none n) (find_cons al n true _) hn f hr]
            show (read (header al none n) f [.ident n] >>= _) = _
            rw [ih.1 [] nil]; rfl
          · rw [read_plain _ f _ (by intro r e; injection e with e; injection e with e; revert e; decide)
              (by intro r e; injection e with e; injection e with e; revert e; decide)]
            show ((name (read (header al none n) f) (header al none n) n []) >>= _) = _
            rw [name, show find (header al none n) n = some (true, [.ident n]) from find_cons _ _ _ _]
            simp only [ih.1 [] nil]; rfl
        · refine ⟨fun r hr => ?_, ?_⟩
          · rw [read_alias (al := header al (some "struct") n) (find_cons al n true _) hn f hr]
            show (read (header al (some "struct") n) f [.ident "struct", .ident n] >>= _) = _
            rw [ih.2]; rfl
          · rw [read_plain _ f _ (by intro r e; injection e with e; injection e with e; revert e; decide)
              (by intro r e; injection e with e; injection e with e; revert e; decide)]
            show ((name (read (header al (some "struct") n) f) (header al (some "struct") n) n []) >>= _) = _
            rw [name, show find (header al (some "struct") n) n = some (true, [.ident "struct", .ident n]) from find_cons _ _ _ _]
            simp only [ih.2]; rfl
  exact fun fuel => (key fuel).1 rest hr

/-- C184 refuted: `alias A = B; alias B = A;` is accepted, and then reading `A` or `B` never ends. -/
theorem cycle_violated : ∃ al al' : Table, declare 2 [] "A" false [.ident "B"] = .ok al ∧
    declare 2 al "B" false [.ident "A"] = .ok al' ∧
    ∀ fuel, read al' fuel [.ident "A"] = .panic ∧ read al' fuel [.ident "B"] = .panic := by
  refine ⟨_, [("B", false, [.ident "B"]), ("A", false, [.ident "B"])], rfl, rfl, ?_⟩
  have nil : Stop [] := by intro r; simp
  have hB : ∀ fuel, read [("B", false, [.ident "B"]), ("A", false, [.ident "B"])] fuel [.ident "B"] = .panic := by
    intro fuel
    induction fuel with
    | zero => rfl
    | succ f ih =>
        rw [read_alias (t := [.ident "B"]) (o := false) (by decide) (by decide) f nil, ih]; rfl
  intro fuel
  refine ⟨?_, hB fuel⟩
  cases fuel with
  | zero => rfl
  | succ f => rw [read_alias (t := [.ident "B"]) (o := false) (by decide) (by decide) f nil, hB]; rfl

/-- C184 refuted: what is kept of a function type is not a function type; of a slice of pointers, a
pointer; of a pointer to an array, the array; of a `restrict` pointer, a plain one; of a pointer to a
function pointer, a function pointer that returns a pointer. -/
theorem shapes_violated (n : String) (hn : n ∉ keywords) (hp : primOf n = none) (hs : primOf ("Slice_" ++ n) = none)
    (hk : "Slice_" ++ n ∉ keywords) (k m : Nat) (as : Tys) (r : Ty) :
    read [] (m + 1) (print (.closure as r)) = .ok (.named "z_closure_T", []) ∧
    read [] (m + 1) (print (.arr 0 (.ptr (.named n)))) = .ok (.ptr (.named ("Slice_" ++ n)), []) ∧
    read [] (m + 1) (print (.ptr (.arr (k + 1) (.named n)))) = .ok (.arr (k + 1) (.named n), [.star]) ∧
    read [] (m + 1) (print (.restrict (.ptr (.named n)))) = .ok (.ptr (.named n), [.ident "__restrict"]) ∧
    read [] (m + 2) (print (.ptr (.raw .nil (.named n)))) = .ok (.raw .nil (.ptr (.named n)), []) := by
  have hnr : ∀ w ∉ keywords, ∀ l r, Tok.ident w :: l ≠ .ident "restrict" :: r := by
    intro w hw l r e; injection e with e; injection e with e; exact hw (by rw [e]; decide)
  have hnc : ∀ w ∉ keywords, ∀ l r, Tok.ident w :: l ≠ .ident "const" :: r := by
    intro w hw l r e; injection e with e; injection e with e; exact hw (by rw [e]; decide)
  have nm : ∀ (P : Rd) w l, w ∉ keywords → primOf w = none → core P [] (.ident w :: l) = .ok (.named w, l) := by
    intro P w l hw hp; rw [core_word hw, name, find]; simp only [hp]
  refine ⟨?_, ?_, ?_, ?_, ?_⟩
  · show read [] (m + 1) [.ident "z_closure_T"] = _
    rw [read_plain _ _ _ (hnr _ (by decide) _) (hnc _ (by decide) _), body, nm _ _ _ (by decide) (by decide +kernel)]; rfl
  · show read [] (m + 1) [.ident ("Slice_" ++ n), .star] = _
    rw [read_plain _ _ _ (hnr _ hk _) (hnc _ hk _), body, nm _ _ _ hk hs]; rfl
  · show read [] (m + 1) [.ident n, .lbrack, .num (k + 1), .rbrack, .star] = _
    rw [read_plain _ _ _ (hnr _ hn _) (hnc _ hn _), body, nm _ _ _ hn hp]; rfl
  · show read [] (m + 1) [.ident n, .star, .ident "__restrict"] = _
    rw [read_plain _ _ _ (hnr _ hn _) (hnc _ hn _), body, nm _ _ _ hn hp]; rfl
  · show read [] (m + 2) [.ident "fn", .star, .lp, .rp, .arrow, .ident n, .star] = _
    have hin : read [] (m + 1) [.ident n, .star] = .ok (.ptr (.named n), []) := by
      rw [read_plain _ _ _ (hnr _ hn _) (hnc _ hn _), body, nm _ _ _ hn hp]; rfl
    rw [read_plain _ (m + 1) _ (by intro r e; injection e with e; injection e with e; revert e; decide)
      (by intro r e; injection e with e; injection e with e; revert e; decide)]
    show (fnType (read [] (m + 1)) [.star, .lp, .rp, .arrow, .ident n, .star] >>= _) = _
    simp only [fnType, countStars, args, ret, Res.ok_bind, hin]
    rfl

/-- C184 refuted: the `typedef` of an array type, of a function pointer, or of a type
like `c_int` is not C. -/
theorem typedef_violated (al : Table) (c : Bool) (b : Base) (s d : Nat) (h : b.Ok al) (as : Qs) (r : Q)
    (has : as.Ok al) (hr : r.Ok al) :
    ¬ TypedefOk (typedefText (Q.data c b s [d + 1]).ty) ∧ ¬ TypedefOk (typedefText (Q.fn c as r).ty) ∧
      ∀ p ∈ cKinds, ¬ TypedefOk (typedefText (.prim p)) := by
  have no : ∀ ts : List Tok, (.lbrack ∈ ts ∨ .lp ∈ ts) → ¬ TypedefOk ts := by
    rintro ts hm ⟨ws, k, _, _, rfl⟩
    simp at hm
  refine ⟨?_, ?_, ?_⟩
  · rw [typedefText, print_q al (.data c b s [d + 1]) ⟨h, by simp⟩]
    exact no _ (.inl (by simp [toks, dimToks]))
  · rw [typedefText, print_q al (.fn c as r) ⟨has, hr⟩]
    exact no _ (.inr (by simp [toks]))
  · rintro p hp ⟨ws, k, _, hw, e⟩
    have hx : ∃ x ∈ notC, typedefText (.prim p) = [.ident x] := by
      revert hp; cases p <;> decide
    obtain ⟨x, hx, e'⟩ := hx
    rw [e'] at e
    cases ws with
    | nil => rename_i h0; exact h0 rfl
    | cons w ws =>
        simp only [List.map_cons, List.cons_append, List.cons.injEq, Tok.ident.injEq] at e
        exact hw w (by simp) (e.1 ▸ hx)

/-- `alias P = Point*; alias Cb = fn*(P, int) -> const P;` and `Cb[4]` -/
example : ∃ al al', declare 3 [] "P" false [.ident "Point", .star] = .ok al ∧
    declare 3 al "Cb" false [.ident "fn", .star, .lp, .ident "P", .comma, .ident "int", .rp, .arrow, .ident "const", .ident "P"]
      = .ok al' ∧
    read al' 3 [.ident "Cb", .lbrack, .num 4, .rbrack] =
      .ok (.arr 4 (.raw (.cons (.ptr (.named "Point")) (.cons (.prim .i32) .nil)) (.const (.ptr (.named "Point")))), []) :=
  ⟨_, _, rfl, rfl, by decide +kernel⟩

end Verif.Alias
