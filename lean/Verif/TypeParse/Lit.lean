import Verif.TypeParse.Limits

/-!
# C149: a name followed by `{`; C150: the type arguments of a struct literal

Models, from `/repo/src/parser/parser_expr.c`, how `name {` is told apart from a name before a block
(2445-2521), the reading of the fields (2689-2722) and the type argument found for the literal of a
generic struct (2725-2830).

Simplified: names of modules and imports (2599-2614; see the unit `Modules`), opaque structs
(2617-2629; see the unit `Opaque`) and literals of vectors (2639-2688) are left out; the name of a field
is an identifier (the code takes any token for it); the buffers of 256 bytes are long enough.
-/

namespace Verif.TypeParse
open Spec

/-! ## Model -/

/-- What is known about names. -/
structure Names where
  /-- the structs read so far: `parsed_structs_list` and `global_user_structs` -/
  structs : List Str
  /-- `find_struct_def`, parser_utils.c:1071-1126 -/
  known : Str → Bool
  /-- `is_known_generic`, parser_utils.c:688-698 -/
  generic : Str → Bool
  /-- vectors: structs whose type is `TYPE_VECTOR` -/
  vector : Str → Bool

/-- `is_primitive_type_name`, parser_utils.c:168-188 -/
def primNames : List Str := [
  "int".toList, "i32".toList, "u8".toList, "i8".toList, "i16".toList, "u16".toList, "u32".toList,
  "i64".toList, "u64".toList, "f32".toList, "float".toList, "f64".toList, "double".toList,
  "void".toList, "bool".toList, "char".toList, "usize".toList, "isize".toList, "uint".toList,
  "byte".toList, "int8_t".toList, "uint8_t".toList, "int16_t".toList, "uint16_t".toList,
  "int32_t".toList, "uint32_t".toList, "int64_t".toList, "uint64_t".toList, "size_t".toList,
  "ptrdiff_t".toList]

/-- Is `name {` the beginning of a literal? parser_expr.c:2445-2521; `body` is what comes behind the
`{`. -/
def isInit (env : Names) (acc : Str) (body : List Tok) : Bool :=
  match body with
  | .rbrace :: _ =>
      env.known acc || env.generic acc || primNames.contains acc
        || env.structs.any fun s => (s ++ ['_']).isPrefixOf acc
  | .ident _ :: .colon :: _ => true
  | .ident _ :: _ => false
  | _ => env.vector acc

/-- One field, or the end behind a comma, parser_expr.c:2696-2717: `E` reads an expression, `F` the
fields behind. -/
def oneField {ε : Type} (E : List Tok → R (ε × List Tok))
    (F : List Tok → R (List (Str × ε) × List Tok)) : List Tok → R (List (Str × ε) × List Tok)
  | .rbrace :: r => .ok ([], r)
  | .ident n :: .colon :: r => (E r).bind fun (e, r) => (F r).bind fun (fs, r) => .ok ((n, e) :: fs, r)
  | _ => .err

/-- The fields of a literal, parser_expr.c:2689-2722. -/
def fields {ε : Type} (E : List Tok → R (ε × List Tok)) :
    Nat → Bool → List Tok → R (List (Str × ε) × List Tok)
  | 0, _, _ => .fuel
  | _ + 1, _, .rbrace :: r => .ok ([], r)
  | k + 1, false, .comma :: ts => oneField E (fields E k false) ts
  | k + 1, _, ts => oneField E (fields E k false) ts

/-- `"Slice_"` -/
def slicePre : Str := "Slice_".toList

/-- The type argument one field tells, parser_expr.c:2767-2820: `gp` is the parameter, `ft` the text of
the type of the field, `v` the type of the value. -/
def tells (gp ft : Str) (v : Ty) : Option Ty :=
  if ft = gp then some v
  else if ft = slicePre ++ gp then
    match v with
    | .arr t _ => some t
    | _ => none
  else if ft.head? = some '[' then
    if ft = '[' :: (gp ++ [']']) then
      match v with
      | .arr t _ => some t
      | _ => none
    else none
  else if ft = gp ++ ['*'] then
    match v with
    | .ptr t => some t
    | _ => none
  else none

/-- A generic struct: its parameters, and names and types of its fields. -/
structure Template where
  name : Str
  params : List Str
  fields : List (Str × Str)

/-- The first parameter, or `T`: parser_expr.c:2737-2739. -/
def Template.first (g : Template) : Str := g.params.headD ['T']

/-- The field of that name: parser_expr.c:2747-2756. -/
def fieldOf (n : Str) : List (Str × Str) → Option Str
  | [] => none
  | (m, t) :: l => if m = n then some t else fieldOf n l

/-- The first argument told by a field of the literal: parser_expr.c:2741-2823. -/
def infer (g : Template) : List (Str × Ty) → Option Ty
  | [] => none
  | (n, v) :: l =>
      match fieldOf n g.fields with
      | some ft =>
          match tells g.first ft v with
          | some t => some t
          | none => infer g l
      | none => infer g l

/-- The struct a literal is of, parser_expr.c:2825-2843: the instance, or the template itself. `str` is
the text of a type in names. -/
def literalName (g : Template) (str : Ty → Str) (init : List (Str × Ty)) : Str :=
  match infer g init with
  | some t => g.name ++ '_' :: str t
  | none => g.name

/-! ## What is meant -/

namespace Spec

/-- The name of the instance for arguments: the unit `Generics`, parser_type.c:628-640 and 674-683. -/
def instName (g : Str) (str : Ty → Str) : List Ty → Str
  | [] => g
  | t :: ts => instName (g ++ '_' :: str t) str ts

/-- The value fits the type of the field, if the parameter `gp` is `t`. -/
inductive Fits (gp : Str) (t : Ty) : Str → Ty → Prop where
  | par : Fits gp t gp t
  | slice (n : Int) : Fits gp t ("Slice_".toList ++ gp) (.arr t n)
  | array (n : Int) : Fits gp t ('[' :: (gp ++ [']'])) (.arr t n)
  | pointer : Fits gp t (gp ++ ['*']) (.ptr t)
  /-- a type that is none of these -/
  | other (ft : Str) (v : Ty) : ft ≠ gp → ft ≠ "Slice_".toList ++ gp → ft ≠ '[' :: (gp ++ [']']) →
      ft ≠ gp ++ ['*'] → Fits gp t ft v

/-- The tokens of fields: `n: e`, with commas between them and, if `trail`, one behind. -/
def fieldToks {ε : Type} (text : ε → List Tok) (trail : Bool) : List (Str × ε) → List Tok
  | [] => []
  | [(n, e)] => .ident n :: .colon :: (text e ++ if trail then [.comma] else [])
  | (n, e) :: l => .ident n :: .colon :: (text e ++ .comma :: fieldToks text trail l)

end Spec

/-! ## C149 -/

/-- A literal with fields, or an empty one of a struct known by then, is read as such. -/
theorem literal_opens (env : Names) (acc : Str) :
    (∀ n r, isInit env acc (.ident n :: .colon :: r) = true) ∧
    (env.known acc = true → ∀ r, isInit env acc (.rbrace :: r) = true) := by
  refine ⟨fun n r => rfl, fun h r => ?_⟩
  show (env.known acc || _ || _ || _) = true
  rw [h]; rfl

/-- A block behind a name that is not that of a type is a block, unless it begins with a label, or is
empty and the name begins with that of a struct and `_`. -/
theorem block_partial (env : Names) (v : Str) (h1 : env.known v = false) (h2 : env.generic v = false)
    (h3 : v ∉ primNames) (h4 : env.vector v = false) (body : List Tok)
    (h5 : ∀ n r, body ≠ .ident n :: .colon :: r)
    (h6 : ∀ r, body = .rbrace :: r → ∀ s ∈ env.structs, ¬ (s ++ ['_']) <+: v) :
    isInit env v body = false := by
  unfold isInit
  split
  · rename_i r
    have h7 := h6 r rfl
    rw [h1, h2]
    have h8 : primNames.contains v = false := by
      rw [Bool.eq_false_iff]
      intro h
      exact h3 (List.contains_iff_mem.mp h)
    have h9 : (env.structs.any fun s => (s ++ ['_']).isPrefixOf v) = false := by
      rw [Bool.eq_false_iff]
      intro h
      obtain ⟨s, hs, hp⟩ := List.any_eq_true.mp h
      exact h7 s hs (List.isPrefixOf_iff_prefix.mp hp)
    rw [h8, h9]; rfl
  · exact absurd rfl (h5 _ _)
  · rfl
  · exact h4

/-- A block that begins with a label is taken for a literal: `if done { outer: loop { … } }`. -/
theorem label_violated (env : Names) (v label : Str) (r : List Tok) :
    isInit env v (.ident label :: .colon :: r) = true := rfl

/-- An empty block is taken for a literal if the variable before it is called like a struct with `_`
behind: `while ring_full(x) == ring_empty {}` with a struct `ring`. -/
theorem prefix_violated (env : Names) (s v : Str) (h : s ∈ env.structs) (r : List Tok) :
    isInit env (s ++ '_' :: v) (.rbrace :: r) = true := by
  have : (env.structs.any fun s' => (s' ++ ['_']).isPrefixOf (s ++ '_' :: v)) = true := by
    refine List.any_eq_true.mpr ⟨s, h, List.isPrefixOf_iff_prefix.mpr ⟨v, ?_⟩⟩
    rw [List.append_assoc]; rfl
  show (_ || _ || _ || _) = true
  rw [this, Bool.or_true]

theorem fields_step {ε : Type} (E : List Tok → R (ε × List Tok)) (k : Nat) (n : Str) (e : ε)
    (ts r : List Tok) (h : E ts = .ok (e, r)) (b : Bool) (c : Bool) (hc : c = true → b = false) :
    fields E (k + 1) b ((if c then [.comma] else []) ++ .ident n :: .colon :: ts)
      = (fields E k false r).bind fun (fs, r) => .ok ((n, e) :: fs, r) := by
  have h1 : oneField E (fields E k false) (.ident n :: .colon :: ts)
      = (fields E k false r).bind fun (fs, r) => .ok ((n, e) :: fs, r) := by
    show (E ts).bind _ = _
    rw [h]; rfl
  cases b with
  | true =>
      cases c with
      | true => exact nomatch hc rfl
      | false => exact h1
  | false => cases c <;> exact h1

/-- The fields of a literal are those that are written, with their values, in order. -/
theorem fields_read {ε : Type} (E : List Tok → R (ε × List Tok)) (text : ε → List Tok)
    (hE : ∀ e r, (∃ x, r = .comma :: x) ∨ (∃ x, r = .rbrace :: x) → E (text e ++ r) = .ok (e, r))
    (trail : Bool) : ∀ (fs : List (Str × ε)) (r : List Tok) (k : Nat) (b c : Bool),
    (c = true → b = false) → fs.length < k →
    fields E k b ((if c then [.comma] else []) ++ (fieldToks text trail fs ++ .rbrace :: r))
      = .ok (fs, r)
  | [], r, k, b, c, hc, hk => by
      obtain ⟨k, rfl⟩ : ∃ j, k = j + 1 := ⟨k - 1, by simp only [List.length_nil] at hk; omega⟩
      cases c with
      | false => cases b <;> rfl
      | true => rw [hc rfl]; rfl
  | [(n, e)], r, k, b, c, hc, hk => by
      obtain ⟨k, rfl⟩ : ∃ j, k = j + 1 := ⟨k - 1, by omega⟩
      obtain ⟨k, rfl⟩ : ∃ j, k = j + 1 := ⟨k - 1, by simp only [List.length_singleton] at hk; omega⟩
      have ht : fieldToks text trail [(n, e)] ++ .rbrace :: r
          = .ident n :: .colon :: (text e ++ ((if trail then [.comma] else []) ++ .rbrace :: r)) := by
        simp only [fieldToks, List.cons_append, List.append_assoc]
      have h1 := hE e ((if trail then [.comma] else []) ++ .rbrace :: r) (by
        cases trail with
        | true => exact .inl ⟨_, rfl⟩
        | false => exact .inr ⟨_, rfl⟩)
      rw [ht, fields_step E _ n e _ _ h1 b c hc]
      cases trail <;> rfl
  | (n, e) :: (n', e') :: fs, r, k, b, c, hc, hk => by
      obtain ⟨k, rfl⟩ : ∃ j, k = j + 1 := ⟨k - 1, by omega⟩
      have ih := fields_read E text hE trail ((n', e') :: fs) r k false true (fun _ => rfl)
        (by simp only [List.length_cons] at hk ⊢; omega)
      have ht : fieldToks text trail ((n, e) :: (n', e') :: fs) ++ .rbrace :: r
          = .ident n :: .colon :: (text e ++
              .comma :: (fieldToks text trail ((n', e') :: fs) ++ .rbrace :: r)) := by
        simp only [fieldToks, List.cons_append, List.append_assoc]
      have h1 := hE e (.comma :: (fieldToks text trail ((n', e') :: fs) ++ .rbrace :: r))
        (.inl ⟨_, rfl⟩)
      rw [ht, fields_step E _ n e _ _ h1 b c hc]
      have ih : fields E k false (.comma :: (fieldToks text trail ((n', e') :: fs) ++ .rbrace :: r))
          = .ok ((n', e') :: fs, r) := ih
      rw [ih]; rfl

/-- Numbers as expressions. -/
def numExpr : List Tok → R (Nat × List Tok)
  | .num n :: r => .ok (n, r)
  | _ => .err

/-- `Point { x: 1, y: 2, }` -/
example : fields numExpr 9 true [.ident ['x'], .colon, .num 1, .comma, .ident ['y'], .colon, .num 2,
    .comma, .rbrace, .semi] = .ok ([(['x'], 1), (['y'], 2)], [.semi]) :=
  fields_read numExpr (fun n => [.num n]) (fun _ _ _ => rfl) true [(['x'], 1), (['y'], 2)] [.semi] 9
    true false (fun h => nomatch h) (by decide)

/-- A file with the struct `ring`. -/
def rings : Names := ⟨["ring".toList], fun n => n == "ring".toList, fun _ => false, fun _ => false⟩

example : isInit rings "done".toList [.ident "stop".toList, .lparen, .rparen, .semi, .rbrace] = false :=
  block_partial rings _ rfl rfl (by decide) rfl _ (fun _ _ h => nomatch h) (fun _ h => nomatch h)

example : isInit rings "done".toList [.rbrace] = false :=
  block_partial rings _ rfl rfl (by decide) rfl _ (fun _ _ h => nomatch h)
    (fun _ _ s hs => by
      rcases List.mem_singleton.mp hs with rfl
      rw [← List.isPrefixOf_iff_prefix]; decide)

example : isInit rings "ring_empty".toList [.rbrace, .semi] = true :=
  prefix_violated rings "ring".toList "empty".toList (.head _) _

/-! ## C150 -/

/-- A field whose type is the parameter itself, a slice, an array or a pointer of it. -/
def Spec.direct (gp ft : Str) : Prop :=
  ft = gp ∨ ft = "Slice_".toList ++ gp ∨ ft = '[' :: (gp ++ [']']) ∨ ft = gp ++ ['*']

theorem tells_direct {gp : Str} {t : Ty} {ft : Str} {v : Ty} (h : Fits gp t ft v)
    (hg : gp ≠ [] ∧ gp.head? ≠ some '[') (hd : direct gp ft) : tells gp ft v = some t := by
  cases h with
  | par => unfold tells; rw [if_pos rfl]
  | slice n =>
      unfold tells
      rw [if_neg, if_pos (show "Slice_".toList ++ gp = slicePre ++ gp from rfl)]
      intro e
      have := congrArg List.length e
      simp only [List.length_append] at this
      have h6 : "Slice_".toList.length = 6 := rfl
      omega
  | array n =>
      unfold tells
      rw [if_neg, if_neg, if_pos (show ('[' :: (gp ++ [']'])).head? = some '[' from rfl), if_pos rfl]
      · intro e
        exact absurd (List.cons.inj e).1 (by decide)
      · intro e
        have := congrArg List.length e
        simp only [List.length_append, List.length_cons, List.length_nil] at this
        omega
  | pointer =>
      obtain ⟨h1, h2⟩ := hg
      unfold tells
      rw [if_neg, if_neg, if_neg, if_pos rfl]
      · intro e
        cases gp with
        | nil => exact h1 rfl
        | cons c gp => exact h2 e
      · intro e
        have := congrArg List.length e
        simp only [List.length_append, List.length_cons, List.length_nil] at this
        have h6 : slicePre.length = 6 := rfl
        omega
      · intro e
        have := congrArg List.length e
        simp only [List.length_append, List.length_cons, List.length_nil] at this
        omega
  | other _ _ a b c d => rcases hd with h | h | h | h <;> contradiction

theorem tells_fits {gp : Str} {t : Ty} {ft : Str} {v : Ty} (h : Fits gp t ft v)
    (hg : gp ≠ [] ∧ gp.head? ≠ some '[') {u : Ty} (hu : tells gp ft v = some u) : u = t := by
  by_cases hd : direct gp ft
  · rw [tells_direct h hg hd] at hu
    cases hu; rfl
  · unfold tells at hu
    rw [if_neg (fun e => hd (.inl e)), if_neg (show ¬ ft = slicePre ++ gp from fun e => hd (.inr (.inl e)))] at hu
    split at hu
    · rw [if_neg (fun e => hd (.inr (.inr (.inl e))))] at hu; exact nomatch hu
    · rw [if_neg (fun e => hd (.inr (.inr (.inr e))))] at hu; exact nomatch hu

/-- In the literal of a struct with one parameter, if the values fit the fields for the argument `t`
and one field has the parameter, a slice, an array or a pointer of it as its type, the argument found is
`t`, and the literal is one of the instance for `t`. (Missing: fields whose type contains the parameter
in another way, and further parameters; see below.) -/
theorem infer_partial (g : Template) (t : Ty) (str : Ty → Str)
    (hg : g.first ≠ [] ∧ g.first.head? ≠ some '[') (init : List (Str × Ty))
    (hf : ∀ p ∈ init, ∀ ft, fieldOf p.1 g.fields = some ft → Fits g.first t ft p.2)
    (hd : ∃ p ∈ init, ∃ ft, fieldOf p.1 g.fields = some ft ∧ direct g.first ft) :
    infer g init = some t ∧ literalName g str init = instName g.name str [t] := by
  have h : infer g init = some t := by
    induction init with
    | nil => obtain ⟨p, hp, _⟩ := hd; exact nomatch hp
    | cons p l ih =>
        obtain ⟨n, v⟩ := p
        unfold infer
        cases e : fieldOf n g.fields with
        | none =>
            dsimp only
            refine ih (fun p hp => hf p (.tail _ hp)) ?_
            obtain ⟨p, hp, ft, h1, h2⟩ := hd
            cases hp with
            | head => rw [e] at h1; exact nomatch h1
            | tail _ hp => exact ⟨p, hp, ft, h1, h2⟩
        | some ft =>
            dsimp only
            have hfit := hf (n, v) (.head _) ft e
            cases e2 : tells g.first ft v with
            | some u => rw [tells_fits hfit hg e2]
            | none =>
                dsimp only
                refine ih (fun p hp => hf p (.tail _ hp)) ?_
                obtain ⟨p, hp, ft', h1, h2⟩ := hd
                cases hp with
                | head =>
                    rw [e] at h1
                    cases h1
                    rw [tells_direct hfit hg h2] at e2
                    exact nomatch e2
                | tail _ hp => exact ⟨p, hp, ft', h1, h2⟩
  refine ⟨h, ?_⟩
  unfold literalName
  rw [h]; rfl

/-- Only the first parameter is looked for: a literal of a struct with two is not one of the instance
for its two arguments. -/
theorem second_violated (g : Template) (t u : Ty) (str : Ty → Str) (init : List (Str × Ty))
    (h : infer g init = some t) (hu : str u ≠ []) :
    literalName g str init ≠ instName g.name str [t, u] := by
  unfold literalName
  rw [h]
  intro e
  have e : g.name ++ '_' :: str t = (g.name ++ '_' :: str t) ++ '_' :: str u := e
  have := congrArg List.length e
  simp only [List.length_append, List.length_cons] at this
  omega

/-- If the types of the fields contain the parameter in another way, as in `Vec<T>` or `T**`, nothing is
found: the literal is one of the template itself, which no C struct is made for. -/
theorem inner_violated (g : Template) (str : Ty → Str) (init : List (Str × Ty))
    (h : ∀ p ∈ init, ∀ ft, fieldOf p.1 g.fields = some ft → ¬ direct g.first ft) :
    literalName g str init = g.name := by
  have h : infer g init = none := by
    induction init with
    | nil => rfl
    | cons p l ih =>
        obtain ⟨n, v⟩ := p
        unfold infer
        cases e : fieldOf n g.fields with
        | none => exact ih (fun p hp => h p (.tail _ hp))
        | some ft =>
            dsimp only
            have hn := h (n, v) (.head _) ft e
            have : tells g.first ft v = none := by
              unfold tells
              rw [if_neg (fun e => hn (.inl e)), if_neg (show ¬ ft = slicePre ++ g.first from fun e => hn (.inr (.inl e)))]
              split
              · rw [if_neg (fun e => hn (.inr (.inr (.inl e))))]
              · rw [if_neg (fun e => hn (.inr (.inr (.inr e))))]
            rw [this]
            exact ih (fun p hp => h p (.tail _ hp))
  unfold literalName
  rw [h]

/-- A string for a pointer tells nothing: `Box { p: "text" }` with a field `p: T*`. -/
theorem string_violated (gp : Str) (h : gp ≠ [] ∧ gp.head? ≠ some '[') :
    tells gp (gp ++ ['*']) (.prim "string".toList) = none := by
  unfold tells
  rw [if_neg, if_neg, if_neg, if_pos rfl]
  · intro e
    cases gp with
    | nil => exact h.1 rfl
    | cons c gp => exact h.2 e
  · intro e
    have := congrArg List.length e
    simp only [List.length_append, List.length_cons, List.length_nil] at this
    have h6 : slicePre.length = 6 := rfl
    omega
  · intro e
    have := congrArg List.length e
    simp only [List.length_append, List.length_cons, List.length_nil] at this
    omega

/-- `struct Box<T> { tag: int; value: T; }` -/
def box : Template := ⟨"Box".toList, [['T']], [("tag".toList, "int32_t".toList), ("value".toList, ['T'])]⟩

/-- `struct Pair<A, B> { a: A; b: B; }` -/
def pair : Template := ⟨"Pair".toList, [['A'], ['B']], [(['a'], ['A']), (['b'], ['B'])]⟩

/-- Names of primitive types are their texts. -/
def primStr : Ty → Str
  | .prim c => c
  | _ => "unknown".toList

example : literalName box primStr [("tag".toList, .prim "int32_t".toList), ("value".toList, .prim "bool".toList)]
    = "Box_bool".toList := by
  refine (infer_partial box (.prim "bool".toList) primStr ⟨by decide, by decide⟩ _ ?_ ?_).2
  · intro p hp ft hft
    rcases List.mem_cons.mp hp with rfl | hp
    · cases hft
      exact .other _ _ (by decide) (by decide) (by decide) (by decide)
    · rcases List.mem_singleton.mp hp with rfl
      cases hft
      exact .par
  · exact ⟨_, .tail _ (.head _), ['T'], rfl, .inl rfl⟩

example : literalName pair primStr [(['a'], .prim "int32_t".toList), (['b'], .prim "bool".toList)]
    ≠ "Pair_int32_t_bool".toList :=
  second_violated pair (.prim "int32_t".toList) (.prim "bool".toList) primStr _ rfl (by decide)

end Verif.TypeParse
