import Verif.Derive.Lemmas

/-! # Properties of derived methods (C72, C73, C74) -/

namespace Verif.Derive

open Generics (Name Ty cText txt)
open DeclOrder (Prim)
open Spec

variable {D : Type}

/-! ## Eq (C72) -/

/-- A comparison that returns, and says what the specification says. -/
def Right (r : Res Bool) (q : Prop) : Prop := ∃ b, r = .ok b ∧ (b = true ↔ q)

theorem right_beq {α : Type} [BEq α] [LawfulBEq α] (a b : α) : Right (.ok (a == b)) (a = b) :=
  ⟨_, rfl, by simp⟩

theorem typed_name (P : List (Decl D)) (n : Name) (v : Val D) : Typed P (.name n) v =
    match decl P n with
    | none => False
    | some d => match d.eq with
      | .custom _ => True
      | _ => match d.body, v with
        | .strct fs, .strct vs => TypedAll P (fs.map (·.ty)) vs
        | .enm pls, .enm i vs => i < pls.length ∧ TypedAll P (pls.getD i []) vs
        | _, _ => False := by
  rw [Typed]; rfl

theorem same_name (F : Flt D) (P : List (Decl D)) (n : Name) (v w : Val D) :
    Same F P (.name n) v w =
    match decl P n with
    | none => False
    | some d => match d.eq with
      | .custom f => f v w = .ok true
      | _ => match d.body, v, w with
        | .strct fs, .strct vs, .strct ws => SameAll F P (fs.map (·.ty)) vs ws
        | .enm pls, .enm i vs, .enm j ws => i = j ∧ SameAll F P (pls.getD i []) vs ws
        | _, _, _ => False := by
  rw [Same]; rfl

theorem eqVal_eqOf (F : Flt D) (P : List (Decl D)) (same : Bool) (n : Name) (v w : Val D) :
    eqVal F P same (.eqOf n) v w =
    match lookup n [] P with
    | none => .panic
    | some (before, d) =>
      match d.eq with
      | .none => .panic
      | .byValue => .panic
      | .custom f => f v w
      | .derived =>
        match d.body, v, w with
        | .strct fs, .strct vs, .strct ws => eqVals F P same before fs vs ws
        | .enm _, .enm i _, .enm j _ => .ok (i == j)
        | _, _, _ => .panic := by
  rw [eqVal]; rfl

mutual
theorem eqVal_right (F : Flt D) {P : List (Decl D)} (hP : Good P) (same : Bool) :
    ∀ (v w : Val D) (t : Ty) (before rest : List (Decl D)), P = before ++ rest →
      Comparable P before t → Typed P t v → Typed P t w → NoNull v → NoNull w →
      Right (eqVal F P same (how before P t) v w) (Same F P t v w) := by
  intro v w t before rest hb hc hv hw nv nw
  cases t with
  | prim p =>
    rw [how_prim hP hb]
    cases p <;> cases v <;> simp only [Typed] at hv <;> cases w <;> simp only [Typed] at hw <;>
      first
        | (simp only [Comparable] at hc; exact absurd rfl hc.1)
        | (simp only [Comparable] at hc; exact absurd rfl hc.2)
        | (simp only [eqVal, Same, reduceCtorEq, if_false]
           first | exact right_beq _ _ | exact ⟨_, rfl, Iff.rfl⟩)
        | (next s s' =>
            cases s with
            | none => exact absurd rfl nv
            | some s =>
              cases s' with
              | none => exact absurd rfl nw
              | some s' =>
                simp only [if_true, eqVal, Same, Option.some.injEq]
                exact right_beq _ _)
  | ptr t =>
    rw [how_ptr]
    cases v <;> simp only [Typed] at hv <;> cases w <;> simp only [Typed] at hw
    · rw [if_neg hv, eqVal]; exact right_beq _ _
    · exact absurd hw hv
    · exact absurd hv hw
    · next s s' =>
      cases s with
      | none => exact absurd rfl nv
      | some s =>
        cases s' with
        | none => exact absurd rfl nw
        | some s' =>
          rw [if_pos hv, eqVal, Same, Option.some.injEq]
          · exact right_beq _ _
          · simp
  | name n =>
    obtain ⟨d, hd, hcd⟩ := hc
    obtain ⟨bef, rst, hl, hsp, hn⟩ := lookup_of_decl hd
    have hm := (decl_mem hd).1
    rcases how_name hP hb hd with hh | ⟨hh, he, pls, hbody⟩
    · rw [hh]
      cases heq : d.eq with
      | none =>
        cases hbody : d.body with
        | strct fs => simp [hbody, heq] at hcd
        | enm pls =>
          simp only [hbody, heq] at hcd
          exfalso
          obtain ⟨e, hde⟩ := Option.isSome_iff_exists.1 hcd.2
          have hde' : decl P n = some e := hb ▸ decl_prefix hde
          rw [hd] at hde'
          injection hde' with hde'
          subst hde'
          have hid : '*' ∉ n := ident_star (hn ▸ hP.ident d hm)
          have hs : isPtr (.name n) = false := by simp [isPtr, cText_name, hid]
          simp [how, cmpOf, hs, find_decl, cText_name, hde, hbody] at hh
      | byValue => cases hbody : d.body <;> simp [hbody, heq] at hcd
      | custom f =>
        obtain ⟨r, hr⟩ := hP.total d hm f heq v w
        refine ⟨r, ?_, ?_⟩
        · rw [eqVal_eqOf]
          simp only [hl, heq]
          exact hr
        · rw [same_name]
          simp only [hd, heq, hr, Res.ok.injEq]
      | derived =>
        cases hbody : d.body with
        | strct fs =>
          cases v <;> simp only [typed_name, hd, heq, hbody] at hv
          cases w <;> simp only [typed_name, hd, heq, hbody] at hw
          next vs ws =>
          have hf := hP.fields bef d rst fs hsp heq hbody
          have := eqVals_right F hP same vs ws fs bef (d :: rst) hsp hf hv hw nv nw
          rw [eqVal_eqOf, same_name]
          simp only [hl, heq, hbody, hd]
          exact this
        | enm pls =>
          have hp := hP.enums d hm pls heq hbody
          cases v <;> simp only [typed_name, hd, heq, hbody] at hv
          cases w <;> simp only [typed_name, hd, heq, hbody] at hw
          next i vs j ws =>
          rw [getD_nil hp] at hv hw
          have e1 := typedAll_nil hv.2
          have e2 := typedAll_nil hw.2
          subst e1 e2
          rw [eqVal_eqOf, same_name]
          simp only [hl, heq, hbody, hd, getD_nil hp, SameAll, and_true]
          exact right_beq _ _
    · rw [hh]
      have hp : ∀ ts ∈ pls, ts = [] := by
        cases heq : d.eq <;> simp only [hbody, heq] at hcd
        · exact hcd.1
        · exact hcd
      have hnc : ∀ f, d.eq ≠ .custom f := fun f h => by simp [hbody, h] at hcd
      cases heq : d.eq with
      | custom f => exact absurd heq (hnc f)
      | byValue => simp [hbody, heq] at hcd
      | none =>
        cases v <;> simp only [typed_name, hd, heq, hbody] at hv
        cases w <;> simp only [typed_name, hd, heq, hbody] at hw
        next i vs j ws =>
        rw [getD_nil hp] at hv hw
        have e1 := typedAll_nil hv.2
        have e2 := typedAll_nil hw.2
        subst e1 e2
        rw [eqVal, same_name]
        simp only [heq, hbody, hd, getD_nil hp, SameAll, and_true]
        exact right_beq _ _
      | derived =>
        cases v <;> simp only [typed_name, hd, heq, hbody] at hv
        cases w <;> simp only [typed_name, hd, heq, hbody] at hw
        next i vs j ws =>
        rw [getD_nil hp] at hv hw
        have e1 := typedAll_nil hv.2
        have e2 := typedAll_nil hw.2
        subst e1 e2
        rw [eqVal, same_name]
        simp only [heq, hbody, hd, getD_nil hp, SameAll, and_true]
        exact right_beq _ _
  | _ => exact absurd hc (by simp [Comparable])

theorem eqVals_right (F : Flt D) {P : List (Decl D)} (hP : Good P) (same : Bool) :
    ∀ (vs ws : Vals D) (fs : List Field) (before rest : List (Decl D)), P = before ++ rest →
      (∀ f ∈ fs, Comparable P before f.ty) → TypedAll P (fs.map (·.ty)) vs →
      TypedAll P (fs.map (·.ty)) ws → NoNulls vs → NoNulls ws →
      Right (eqVals F P same before fs vs ws) (SameAll F P (fs.map (·.ty)) vs ws) := by
  intro vs ws fs before rest hb hc hv hw nv nw
  cases fs with
  | nil =>
    have e1 := typedAll_nil hv
    have e2 := typedAll_nil hw
    subst e1 e2
    exact ⟨true, by simp [eqVals], by simp [SameAll]⟩
  | cons f fs =>
    cases vs with
    | nil => simp [TypedAll] at hv
    | cons v vs =>
      cases ws with
      | nil => simp [TypedAll] at hw
      | cons w ws =>
        simp only [List.map_cons, TypedAll] at hv hw
        obtain ⟨b, h1, h2⟩ := eqVal_right F hP same v w f.ty before rest hb (hc f (by simp))
          hv.1 hw.1 nv.1 nw.1
        obtain ⟨c, h3, h4⟩ := eqVals_right F hP same vs ws fs before rest hb
          (fun g hg => hc g (by simp [hg])) hv.2 hw.2 nv.2 nw.2
        simp only [eqVals, List.map_cons, SameAll, h1, Res.ok_bind]
        cases b with
        | false => exact ⟨false, by simp, by simp [← h2]⟩
        | true =>
          refine ⟨c, by simpa using h3, ?_⟩
          rw [h4]; simp [← h2]
end

/-- C72 (partial): for every program whose derived types have fields that can be compared, and
all values without NULL strings, comparing two values of a type that derives `Eq` returns, and
returns true exactly when they are structurally equal, whether or not they are the same object.
Missing from the full claim: payloads (`payload_violated`), arrays (`array_violated`), NULL
strings (`null_violated`), enums with their own `eq` (`own_eq_violated`), enums declared later
(`later_enum_violated`), fields of type `Vec` (`vec_violated`), long names
(`eq_overflow_violated`). -/
theorem eq_partial (F : Flt D) {P : List (Decl D)} (hP : Good P) (same : Bool) {n : Name}
    {d : Decl D} (hd : decl P n = some d) (he : d.eq = .derived) (v w : Val D)
    (hv : Typed P (.name n) v) (hw : Typed P (.name n) w) (nv : NoNull v) (nw : NoNull w) :
    ∃ b, derivedEq F P same n v w = .ok b ∧ (b = true ↔ Same F P (.name n) v w) := by
  have hm := (decl_mem hd).1
  have hc : Comparable P [] (.name n) := ⟨d, hd, by
    cases hbody : d.body with
    | strct fs => simp [he]
    | enm pls => simpa [he] using hP.enums d hm pls he hbody⟩
  have := eqVal_right F hP same v w (.name n) [] P rfl hc hv hw nv nw
  rw [how_late hP (by simp : P = [] ++ P) hd (.inl rfl)] at this
  exact this

/-! ### A case that meets the hypotheses -/

/-- Machine numbers for the examples: integers. -/
def intFlt : Flt Int where
  eq := (· == ·)
  ofInt := id
  toInt := some
  round := by intro i _ _; rfl

/-- `enum Color { Red, Green }`, `struct Point { x: int; label: char*; color: Color }` and
`struct Line { a: Point; b: Point; next: Line* }`, the structs with `@derive(Eq)`. -/
def shapes : List (Decl Int) :=
  [ ⟨"Color".toList, .enm [[], []], .none, false, false⟩,
    ⟨"Point".toList, .strct [⟨"x".toList, .prim .int⟩, ⟨"label".toList, .ptr (.prim .char)⟩,
      ⟨"color".toList, .name "Color".toList⟩], .derived, false, false⟩,
    ⟨"Line".toList, .strct [⟨"a".toList, .name "Point".toList⟩, ⟨"b".toList, .name "Point".toList⟩,
      ⟨"next".toList, .ptr (.name "Line".toList)⟩], .derived, false, false⟩ ]

/-- A point. -/
def point (x : Int) (s : List UInt8) (c : Nat) : Val Int :=
  .strct (.cons (.num x) (.cons (.cstr (some s)) (.cons (.enm c .nil) .nil)))

/-- A line. -/
def line (a b : Val Int) (next : Nat) : Val Int := .strct (.cons a (.cons b (.cons (.addr next) .nil)))

theorem split3 {α : Type} {a b c d : α} {before rest : List α}
    (h : [a, b, c] = before ++ d :: rest) :
    (before = [] ∧ d = a) ∨ (before = [a] ∧ d = b) ∨ (before = [a, b] ∧ d = c) := by
  match before, h with
  | [], h => simp at h; exact .inl ⟨rfl, h.1.symm⟩
  | [_], h => simp at h; exact .inr (.inl ⟨by simp [h.1], h.2.1.symm⟩)
  | [_, _], h => simp at h; exact .inr (.inr ⟨by simp [h.1, h.2.1], h.2.2.1.symm⟩)
  | _ :: _ :: _ :: _, h => simp at h

theorem shapes_good : Good shapes where
  ident := by decide
  basic := by decide
  prim := by
    intro d hd p
    simp only [shapes, List.mem_cons, List.not_mem_nil, or_false] at hd
    rcases hd with rfl | rfl | rfl <;> cases p <;> decide
  total := by
    intro d hd f hf
    simp only [shapes, List.mem_cons, List.not_mem_nil, or_false] at hd
    rcases hd with rfl | rfl | rfl <;> cases hf
  fields := by
    intro before d rest fs h he hb f hf
    rcases split3 h with ⟨rfl, rfl⟩ | ⟨rfl, rfl⟩ | ⟨rfl, rfl⟩
    · cases he
    · cases hb
      simp only [List.mem_cons, List.not_mem_nil, or_false] at hf
      rcases hf with rfl | rfl | rfl
      · exact ⟨by decide, by decide⟩
      · trivial
      · exact ⟨_, rfl, by simp, rfl⟩
    · cases hb
      simp only [List.mem_cons, List.not_mem_nil, or_false] at hf
      rcases hf with rfl | rfl | rfl
      · exact ⟨_, rfl, trivial⟩
      · exact ⟨_, rfl, trivial⟩
      · trivial
  enums := by
    intro d hd pls he hb
    simp only [shapes, List.mem_cons, List.not_mem_nil, or_false] at hd
    rcases hd with rfl | rfl | rfl
    · cases he
    · cases hb
    · cases hb

theorem point_typed (x : Int) (s : List UInt8) (c : Nat) (h : c < 2) :
    Typed shapes (.name "Point".toList) (point x s c) := by
  have hd : decl shapes "Point".toList = some ⟨"Point".toList, .strct [⟨"x".toList, .prim .int⟩,
    ⟨"label".toList, .ptr (.prim .char)⟩, ⟨"color".toList, .name "Color".toList⟩], .derived,
    false, false⟩ := rfl
  have hc : decl shapes "Color".toList = some ⟨"Color".toList, .enm [[], []], .none, false, false⟩ :=
    rfl
  rw [typed_name, hd]
  refine ⟨trivial, .inl rfl, ?_, trivial⟩
  rw [typed_name, hc]
  refine ⟨h, ?_⟩
  match c, h with
  | 0, _ => trivial
  | 1, _ => trivial

theorem line_typed (a b : Val Int) (n : Nat) (ha : Typed shapes (.name "Point".toList) a)
    (hb : Typed shapes (.name "Point".toList) b) : Typed shapes (.name "Line".toList) (line a b n) := by
  have hd : decl shapes "Line".toList = some ⟨"Line".toList,
    .strct [⟨"a".toList, .name "Point".toList⟩, ⟨"b".toList, .name "Point".toList⟩,
      ⟨"next".toList, .ptr (.name "Line".toList)⟩], .derived, false, false⟩ := rfl
  rw [typed_name, hd]
  exact ⟨ha, hb, by show ¬ isText _; decide, trivial⟩

/-- Two lines that differ in the label of the second point only. -/
example (same : Bool) : ∃ b, derivedEq intFlt shapes same "Line".toList
    (line (point 1 [65] 0) (point 2 [66] 1) 7) (line (point 1 [65] 0) (point 2 [67] 1) 7) = .ok b ∧
    (b = true ↔ Same intFlt shapes (.name "Line".toList)
      (line (point 1 [65] 0) (point 2 [66] 1) 7) (line (point 1 [65] 0) (point 2 [67] 1) 7)) :=
  eq_partial intFlt shapes_good same (d := ⟨"Line".toList, _, .derived, false, false⟩) rfl rfl _ _
    (line_typed _ _ _ (point_typed _ _ _ (by decide)) (point_typed _ _ _ (by decide)))
    (line_typed _ _ _ (point_typed _ _ _ (by decide)) (point_typed _ _ _ (by decide)))
    (by simp [line, point, NoNull, NoNulls]) (by simp [line, point, NoNull, NoNulls])

example : derivedEq intFlt shapes false "Line".toList
    (line (point 1 [65] 0) (point 2 [66] 1) 7) (line (point 1 [65] 0) (point 2 [67] 1) 7) =
    .ok false := by decide +kernel
example : derivedEq intFlt shapes false "Line".toList
    (line (point 1 [65] 0) (point 2 [66] 1) 7) (line (point 1 [65] 0) (point 2 [66] 1) 7) =
    .ok true := by decide +kernel

/-! ### Where the full claim fails -/

/-- `@derive(Eq) enum Shape { Circle(int) }` -/
def payload : List (Decl D) := [⟨"Shape".toList, .enm [[.prim .int]], .derived, false, false⟩]

/-- C72, violated: values of an enum with different payloads are equal. -/
theorem payload_violated (F : Flt D) (same : Bool) (x y : Int) (h : x ≠ y) :
    derivedEq F payload same "Shape".toList (.enm 0 (.cons (.num x) .nil))
      (.enm 0 (.cons (.num y) .nil)) = .ok true ∧
    ¬ Same F payload (.name "Shape".toList) (.enm 0 (.cons (.num x) .nil))
      (.enm 0 (.cons (.num y) .nil)) := by
  refine ⟨rfl, ?_⟩
  intro hs
  rw [same_name] at hs
  exact h hs.2.1

/-- `@derive(Eq) struct S { f: t }` -/
def single (t : Ty) : Decl D :=
  ⟨"S".toList, .strct [⟨"f".toList, t⟩], .derived, false, false⟩

/-- A value of it. -/
def box (v : Val D) : Val D := .strct (.cons v .nil)

/-- C72, violated: two structs with the same array are not equal, as the addresses of the arrays
are compared. -/
theorem array_violated (F : Flt D) (x y : Int) :
    derivedEq F [single (.arr (.prim .int) 2)] false "S".toList
      (box (.arr (.cons (.num x) (.cons (.num y) .nil))))
      (box (.arr (.cons (.num x) (.cons (.num y) .nil)))) = .ok false ∧
    Same F [single (.arr (.prim .int) 2)] (.name "S".toList)
      (box (.arr (.cons (.num x) (.cons (.num y) .nil))))
      (box (.arr (.cons (.num x) (.cons (.num y) .nil)))) := by
  refine ⟨rfl, ?_⟩
  rw [same_name]
  exact ⟨⟨rfl, rfl, trivial⟩, trivial⟩

/-- `JsonType` and `JsonValue` of /repo/std/json.zc:9-28. -/
def jsonDecls : List (Decl D) :=
  [ ⟨"JsonType".toList, .enm [[], [], [], [], [], []], .derived, false, false⟩,
    ⟨"JsonValue".toList, .strct [⟨"kind".toList, .name "JsonType".toList⟩,
      ⟨"string_val".toList, .ptr (.prim .char)⟩, ⟨"number_val".toList, .prim .f64⟩,
      ⟨"bool_val".toList, .prim .bool⟩,
      ⟨"array_val".toList, .ptr (.app "Vec".toList (.ptr (.name "JsonValue".toList)))⟩,
      ⟨"object_val".toList, .ptr (.app "Map".toList (.ptr (.name "JsonValue".toList)))⟩],
      .derived, false, false⟩ ]

/-- `JsonValue::number(n)`, /repo/std/json.zc:184-186. -/
def jsonNumber (n : D) : Val D :=
  .strct (.cons (.enm 2 .nil) (.cons (.cstr none) (.cons (.dbl n) (.cons (.bool false)
    (.cons (.addr 0) (.cons (.addr 0) .nil))))))

/-- C72, violated: `JsonValue::number(m) == JsonValue::number(n)` calls `strcmp(NULL, NULL)`. -/
theorem null_violated (F : Flt D) (same : Bool) (m n : D) :
    derivedEq F jsonDecls same "JsonValue".toList (jsonNumber m) (jsonNumber n) = .ub := rfl

/-- An enum `Level` with an `eq` written by hand, and `@derive(Eq) struct S { f: Level }` -/
def ownEq (f : Val D → Val D → Res Bool) : List (Decl D) :=
  [⟨"Level".toList, .enm [[], []], .custom f, false, false⟩, single (.name "Level".toList)]

/-- C72, violated: the `eq` a user wrote for an enum is used for `a == b`, but not for a field of a
struct that derives `Eq`. -/
theorem own_eq_violated (F : Flt D) (same : Bool) (f : Val D → Val D → Res Bool)
    (h : f (.enm 0 .nil) (.enm 1 .nil) = .ok true) :
    derivedEq F (ownEq f) same "Level".toList (.enm 0 .nil) (.enm 1 .nil) = .ok true ∧
    derivedEq F (ownEq f) same "S".toList (box (.enm 0 .nil)) (box (.enm 1 .nil)) = .ok false ∧
    Same F (ownEq f) (.name "S".toList) (box (.enm 0 .nil)) (box (.enm 1 .nil)) := by
  refine ⟨h, rfl, ?_⟩
  rw [same_name]
  refine ⟨?_, trivial⟩
  rw [same_name]
  exact h

/-- C72, violated: with `enum Level { Low, High }` before `@derive(Eq) struct S { f: Level }` the
values are compared; with the enum after the struct the C compiler meets `Level__eq`, which
does not exist. -/
theorem later_enum_violated (F : Flt D) (same : Bool) (i j : Nat) :
    derivedEq F [⟨"Level".toList, .enm [[], []], .none, false, false⟩,
      single (.name "Level".toList)] same "S".toList (box (.enm i .nil)) (box (.enm j .nil)) =
      .ok (i == j) ∧
    derivedEq F [single (.name "Level".toList),
      ⟨"Level".toList, .enm [[], []], .none, false, false⟩] same "S".toList (box (.enm i .nil))
      (box (.enm j .nil)) = .panic := by
  constructor
  · show (do let b ← Res.ok (i == j); if b then Res.ok true else Res.ok false) = Res.ok (i == j)
    cases h : i == j <;> simp
  · rfl

/-- C72, violated: a struct with a field of type `Vec<int>` cannot derive `Eq`: `Vec::eq` takes
the second vector by value and is given a pointer. -/
theorem vec_violated (F : Flt D) (same : Bool) (fs : List Field) (v w : Val D) :
    derivedEq F [⟨"Vec_int".toList, .strct fs, .byValue, false, false⟩,
      single (.app "Vec".toList (.prim .int))] same "S".toList (box v) (box w) = .panic := by
  have : eqVal F [⟨"Vec_int".toList, .strct fs, .byValue, false, false⟩,
      single (.app "Vec".toList (.prim .int))] same (.eqOf "Vec_int".toList) v w = .panic := by
    rw [eqVal_eqOf]; rfl
  show (do let b ← eqVal F _ same (.eqOf "Vec_int".toList) v w; if b then Res.ok true else _) = _
  rw [this]; rfl

/-! ### The buffers -/

theorem cmpText_tags (n : Name) : (cmpText n .tags).length = 23 + 2 * n.length := by
  have h1 : "self.".toList.length = 5 := by decide
  have h2 : ".tag == other.".toList.length = 14 := by decide
  have h3 : ".tag".toList.length = 4 := by decide
  unfold cmpText
  simp only [List.length_append]
  omega

theorem cmpText_call (n ft : Name) :
    (cmpText n (.call ft)).length = 21 + ft.length + 2 * n.length := by
  have h1 : "__eq(&self.".toList.length = 11 := by decide
  have h2 : ", &other.".toList.length = 9 := by decide
  have h3 : ")".toList.length = 1 := by decide
  unfold cmpText
  simp only [List.length_append]
  omega

theorem cmpText_plain (n : Name) : (cmpText n .plain).length = 15 + 2 * n.length := by
  have h1 : "self.".toList.length = 5 := by decide
  have h2 : " == other.".toList.length = 10 := by decide
  unfold cmpText
  simp only [List.length_append]
  omega

theorem cmpText_len (before : List (Decl D)) (f : Field) :
    (cmpText f.name (cmpOf before f.ty)).length = cmpLen before f := by
  unfold cmpLen
  generalize cmpOf before f.ty = c
  cases c with
  | tags => exact cmpText_tags _
  | call ft => exact cmpText_call _ _
  | plain => exact cmpText_plain _

/-- Whether the loop stays in its buffers. -/
theorem eqLoop_iff (before : List (Decl D)) : ∀ (fs : List Field) (first : Bool) (body : Name),
    body.length < 4096 →
    (∀ r, eqLoop before first fs body = .ok r →
      (∀ f ∈ fs, cmpLen before f < 256) ∧ r.1 = (first && fs.isEmpty) ∧ r.2.length < 4096 ∧
      r.2.length = body.length + (fs.map (cmpLen before)).sum +
        4 * (fs.length - if first then 1 else 0)) ∧
    ((∀ f ∈ fs, cmpLen before f < 256) →
      body.length + (fs.map (cmpLen before)).sum + 4 * (fs.length - if first then 1 else 0) < 4096 →
      ∃ r, eqLoop before first fs body = .ok r) ∧
    eqLoop before first fs body ≠ .panic
  | [], first, body, hl => by
    refine ⟨?_, fun _ _ => ⟨_, rfl⟩, by simp [eqLoop]⟩
    intro r h
    cases h
    exact ⟨by simp, by simp, hl, by simp⟩
  | f :: fs, first, body, hl => by
    have h4 : " && ".toList.length = 4 := by decide
    have hc := cmpText_len before f
    obtain ⟨k, hk, hs⟩ : ∃ k, k = (if first then 0 else 4) ∧
        ∀ b, sep first 4096 " && ".toList body = .ok b → b.length = body.length + k ∧
          b.length < 4096 := by
      refine ⟨_, rfl, ?_⟩
      intro b hb
      unfold sep at hb
      split at hb
      · next hf => cases hb; simp [hf, hl]
      · next hf =>
        unfold into at hb
        split at hb
        · next hi => cases hb; simp only [List.length_append, h4] at *; simp [hf]; omega
        · cases hb
    have hs' : body.length + k < 4096 → ∃ b, sep first 4096 " && ".toList body = .ok b := by
      intro h
      unfold sep
      split
      · exact ⟨_, rfl⟩
      · next hf => 
        simp only [hf] at hk
        unfold into
        rw [if_pos (by simp only [List.length_append, h4]; simp at hk; omega)]
        exact ⟨_, rfl⟩
    have hs'' : sep first 4096 " && ".toList body ≠ .panic := by
      unfold sep into
      split
      · simp
      · split <;> simp
    have hk' : 4 * ((f :: fs).length - if first then 1 else 0) = k + 4 * fs.length := by
      cases first <;> simp [hk] <;> omega
    rw [hk']
    simp only [List.map_cons, List.sum_cons, List.mem_cons, forall_eq_or_imp]
    cases hb : sep first 4096 " && ".toList body with
    | panic => exact absurd hb hs''
    | ub =>
      refine ⟨?_, ?_, ?_⟩
      · intro r h
        simp only [eqLoop, hb, Res.ub_bind] at h
        cases h
      · intro _ h
        obtain ⟨b, hb'⟩ := hs' (by omega)
        rw [hb] at hb'; cases hb'
      · simp only [eqLoop, hb, Res.ub_bind]
        exact fun h => by cases h
    | ok b =>
      obtain ⟨hbl, hb4⟩ := hs b hb
      by_cases h256 : cmpLen before f < 256
      · have hi : into 256 (cmpText f.name (cmpOf before f.ty)) =
            .ok (cmpText f.name (cmpOf before f.ty)) := by
          unfold into; rw [if_pos (by omega)]
        by_cases h4096 : b.length + cmpLen before f < 4096
        · have hi' : into 4096 (b ++ cmpText f.name (cmpOf before f.ty)) =
              .ok (b ++ cmpText f.name (cmpOf before f.ty)) := by
            unfold into; rw [if_pos (by simp only [List.length_append]; omega)]
          obtain ⟨i1, i2, i3⟩ := eqLoop_iff before fs false
            (b ++ cmpText f.name (cmpOf before f.ty)) (by simp only [List.length_append]; omega)
          have e : eqLoop before first (f :: fs) body =
              eqLoop before false fs (b ++ cmpText f.name (cmpOf before f.ty)) := by
            simp only [eqLoop, hb, hi, hi', Res.ok_bind]
          rw [e]
          simp only [List.length_append, Bool.false_eq_true, if_false, Nat.sub_zero,
            Bool.false_and] at i1 i2
          refine ⟨?_, ?_, i3⟩
          · intro r h
            obtain ⟨j1, j2, j3, j4⟩ := i1 r h
            exact ⟨⟨h256, j1⟩, by simp [j2], j3, by omega⟩
          · intro h1 h2
            exact i2 h1.2 (by omega)
        · have hi' : into 4096 (b ++ cmpText f.name (cmpOf before f.ty)) = .ub := by
            unfold into; rw [if_neg (by simp only [List.length_append]; omega)]
          have e : eqLoop before first (f :: fs) body = .ub := by
            simp only [eqLoop, hb, hi, hi', Res.ok_bind, Res.ub_bind]
          rw [e]
          refine ⟨fun r h => (by cases h), fun _ h => ?_, by simp⟩
          omega
      · have hi : into 256 (cmpText f.name (cmpOf before f.ty)) = .ub := by
          unfold into; rw [if_neg (by omega)]
        have e : eqLoop before first (f :: fs) body = .ub := by
          simp only [eqLoop, hb, hi, Res.ok_bind, Res.ub_bind]
        rw [e]
        exact ⟨fun r h => (by cases h), fun h => absurd h.1 h256, by simp⟩

/-- C72: the text of the method of a struct is written within its buffers exactly when every
comparison has at most 255 characters, the body at most 4095 and the whole at most 5119. -/
theorem eq_text_iff (before : List (Decl D)) (d : Decl D) (fs : List Field)
    (hb : d.body = .strct fs) : (∃ t, eqText before d = .ok t) ↔
      (∀ f ∈ fs, cmpLen before f < 256) ∧ bodyLen before fs < 4096 ∧
      44 + 2 * d.name.length + bodyLen before fs < 5120 := by
  have h7 : "return ".toList.length = 7 := by decide
  have h1 : ";".toList.length = 1 := by decide
  have ht : "true".toList.length = 4 := by decide
  have ha : "impl ".toList.length = 5 := by decide
  have hb' : " { fn eq(self, other: ".toList.length = 22 := by decide
  have hc : "*) -> bool { ".toList.length = 13 := by decide
  have hd : " } }".toList.length = 4 := by decide
  have h0 : into 4096 "return ".toList = .ok "return ".toList := by decide
  obtain ⟨i1, i2, i3⟩ := eqLoop_iff before fs true "return ".toList (by decide)
  simp only [h7, if_true, Bool.true_and] at i1 i2
  unfold eqText eqBody
  rw [hb]
  simp only [h0, Res.ok_bind]
  constructor
  · rintro ⟨t, h⟩
    cases hl : eqLoop before true fs "return ".toList with
    | panic => exact absurd hl i3
    | ub =>
      simp only [hl, Res.ub_bind] at h
      cases h
    | ok r =>
      obtain ⟨j1, j2, j3, j4⟩ := i1 r hl
      simp only [hl, Res.ok_bind] at h
      refine ⟨j1, ?_⟩
      cases fs with
      | nil =>
        simp only [List.isEmpty_nil] at j2
        simp only [j2, Bool.not_true, sep, Bool.false_eq_true, if_false] at h
        simp only [List.map_nil, List.sum_nil, List.length_nil] at j4
        simp only [into, List.length_append, ht, j4] at h
        repeat' (first | split at h | (simp only [Res.ok_bind, Res.ub_bind] at h))
        all_goals first
          | (cases h; done)
          | (simp only [List.length_append, ha, hb', hc, hd, h1, ht, j4] at *
             simp only [bodyLen, if_true]; omega)
      | cons f fs =>
        simp only [List.isEmpty_cons] at j2
        simp only [j2, Bool.not_false, sep, if_true, Res.ok_bind] at h
        simp only [bodyLen, reduceCtorEq, if_false]
        simp only [into, List.length_append, h1] at h
        repeat' (first | split at h | (simp only [Res.ok_bind, Res.ub_bind] at h))
        all_goals first
          | (cases h; done)
          | (simp only [List.length_append, ha, hb', hc, hd, h1] at *; omega)
  · rintro ⟨k1, k2, k3⟩
    cases fs with
    | nil =>
      simp only [bodyLen, if_true] at k2 k3
      simp only [eqLoop, Res.ok_bind, sep, Bool.not_true, Bool.false_eq_true, if_false]
      have e1 : into 4096 ("return ".toList ++ "true".toList) =
        .ok ("return ".toList ++ "true".toList) := by decide
      have e2 : into 4096 ("return ".toList ++ "true".toList ++ ";".toList) =
        .ok ("return ".toList ++ "true".toList ++ ";".toList) := by decide
      simp only [e1, e2, Res.ok_bind]
      unfold into
      rw [if_pos (by simp only [List.length_append, ha, hb', hc, hd, h1, ht, h7]; omega)]
      exact ⟨_, rfl⟩
    | cons f fs =>
      simp only [bodyLen, reduceCtorEq, if_false] at k2 k3
      obtain ⟨r, hr⟩ := i2 k1 (by omega)
      obtain ⟨j1, j2, j3, j4⟩ := i1 r hr
      simp only [List.isEmpty_cons] at j2
      simp only [hr, Res.ok_bind, j2, sep, Bool.not_false, if_true]
      have e : into 4096 (r.2 ++ ";".toList) = .ok (r.2 ++ ";".toList) := by
        unfold into; rw [if_pos (by simp only [List.length_append, h1]; omega)]
      simp only [e, Res.ok_bind]
      unfold into
      rw [if_pos (by simp only [List.length_append, ha, hb', hc, hd, h1]; omega)]
      exact ⟨_, rfl⟩

/-- C72, violated: a field with a name of 121 characters or more makes the compiler write past
the end of a buffer. -/
theorem eq_overflow_violated (before : List (Decl D)) (d : Decl D) (fs : List Field)
    (hb : d.body = .strct fs) (f : Field) (hf : f ∈ fs) (hl : 121 ≤ f.name.length) :
    ¬ ∃ t, eqText before d = .ok t := by
  rw [eq_text_iff before d fs hb]
  rintro ⟨h, _⟩
  have := h f hf
  unfold cmpLen at this
  split at this <;> omega

/-- The method of `Point` fits. -/
example : ∃ t, eqText (shapes.take 1) ⟨"Point".toList, .strct [⟨"x".toList, .prim .int⟩,
    ⟨"label".toList, .ptr (.prim .char)⟩, ⟨"color".toList, .name "Color".toList⟩], .derived,
    false, false⟩ = .ok t :=
  (eq_text_iff _ _ _ rfl).2 (by decide)

/-! ## Clone (C73) -/

mutual
theorem same_refl (F : Flt D) {P : List (Decl D)}
    (hc : ∀ d ∈ P, ∀ f, d.eq = .custom f → ∀ a, f a a = .ok true) :
    ∀ (v : Val D) (t : Ty), Typed P t v → SelfEq F v → Same F P t v v := by
  intro v t h hs
  have hname : ∀ n, t = .name n → (∀ ts vs, v = .strct vs → TypedAll P ts vs → SameAll F P ts vs vs) →
      (∀ ts i vs, v = .enm i vs → TypedAll P ts vs → SameAll F P ts vs vs) → Same F P t v v := by
    rintro n rfl h1 h2
    rw [typed_name] at h
    rw [same_name]
    cases hd : decl P n with
    | none => simp [hd] at h
    | some d =>
      simp only [hd] at h ⊢
      have hm := (decl_mem hd).1
      cases he : d.eq with
      | custom f => simp only; exact hc d hm f he v
      | none | derived | byValue =>
        simp only [he] at h ⊢
        cases hb : d.body with
        | strct fs =>
          simp only [hb] at h ⊢
          cases v <;> simp only at h
          exact h1 _ _ rfl h
        | enm pls =>
          simp only [hb] at h ⊢
          cases v <;> simp only at h
          exact ⟨rfl, h2 _ _ _ rfl h.2⟩
  cases v with
  | strct vs =>
    cases t with
    | name n => exact hname n rfl (fun ts ws hw ht => by
        cases hw; exact sameAll_refl F hc vs ts ht hs) (fun _ _ _ hw => by cases hw)
    | prim p => cases p <;> rw [Typed.eq_def] at h <;> simp at h
    | _ => rw [Typed.eq_def] at h; simp at h
  | enm i vs =>
    cases t with
    | name n => exact hname n rfl (fun _ _ hw => by cases hw) (fun ts j ws hw ht => by
        cases hw; exact sameAll_refl F hc vs ts ht hs)
    | prim p => cases p <;> rw [Typed.eq_def] at h <;> simp at h
    | _ => rw [Typed.eq_def] at h; simp at h
  | arr vs =>
    cases t with
    | name n => exact hname n rfl (fun _ _ hw => by cases hw) (fun _ _ _ hw => by cases hw)
    | arr t n =>
      rw [Typed.eq_def] at h
      rw [Same]
      exact sameAll_refl F hc vs _ h hs
    | prim p => cases p <;> rw [Typed.eq_def] at h <;> simp at h
    | _ => rw [Typed.eq_def] at h; simp at h
  | num n =>
    cases t with
    | name n => exact hname n rfl (fun _ _ hw => by cases hw) (fun _ _ _ hw => by cases hw)
    | _ => rw [Same.eq_def]
  | bool n =>
    cases t with
    | name n => exact hname n rfl (fun _ _ hw => by cases hw) (fun _ _ _ hw => by cases hw)
    | _ => rw [Same.eq_def]
  | dbl n =>
    cases t with
    | name n => exact hname n rfl (fun _ _ hw => by cases hw) (fun _ _ _ hw => by cases hw)
    | _ => rw [Same.eq_def]; exact hs
  | addr n =>
    cases t with
    | name n => exact hname n rfl (fun _ _ hw => by cases hw) (fun _ _ _ hw => by cases hw)
    | _ => rw [Same.eq_def]
  | cstr n =>
    cases t with
    | name n => exact hname n rfl (fun _ _ hw => by cases hw) (fun _ _ _ hw => by cases hw)
    | _ => rw [Same.eq_def]
  | string n =>
    cases t with
    | name n => exact hname n rfl (fun _ _ hw => by cases hw) (fun _ _ _ hw => by cases hw)
    | prim p => cases p <;> rw [Typed.eq_def] at h <;> simp at h
    | _ => rw [Typed.eq_def] at h; simp at h
  | strs n =>
    cases t with
    | name n => exact hname n rfl (fun _ _ hw => by cases hw) (fun _ _ _ hw => by cases hw)
    | prim p => cases p <;> rw [Typed.eq_def] at h <;> simp at h
    | _ => rw [Typed.eq_def] at h; simp at h

theorem sameAll_refl (F : Flt D) {P : List (Decl D)}
    (hc : ∀ d ∈ P, ∀ f, d.eq = .custom f → ∀ a, f a a = .ok true) :
    ∀ (vs : Vals D) (ts : List Ty), TypedAll P ts vs → SelfEq.SelfEqs F vs →
      SameAll F P ts vs vs := by
  intro vs ts h hs
  cases vs with
  | nil =>
    cases ts with
    | nil => trivial
    | cons => simp [TypedAll] at h
  | cons v vs =>
    cases ts with
    | nil => simp [TypedAll] at h
    | cons t ts =>
      exact ⟨same_refl F hc v t h.1 hs.1, sameAll_refl F hc vs ts h.2 hs.2⟩
end

/-- C73 (partial): in a program as in C72 whose own `eq`s are reflexive, a value without NaN and
NULL strings equals its derived clone.  Missing: that the two can both be dropped, which holds
for values that own nothing only (`clone_drop_iff`). -/
theorem clone_partial (F : Flt D) {P : List (Decl D)} (hP : Good P)
    (hc : ∀ d ∈ P, ∀ f, d.eq = .custom f → ∀ a, f a a = .ok true) {n : Name} {d : Decl D}
    (hd : decl P n = some d) (he : d.eq = .derived) (v : Val D) (hv : Typed P (.name n) v)
    (nv : NoNull v) (hs : SelfEq F v) :
    derivedEq F P false n v (derivedClone v) = .ok true := by
  obtain ⟨b, h1, h2⟩ := eq_partial F hP false hd he v (derivedClone v) hv hv nv nv
  rw [h1, h2.2 (same_refl F hc v _ hv hs)]

example : derivedEq intFlt shapes false "Line".toList (line (point 1 [65] 0) (point 2 [66] 1) 7)
    (derivedClone (line (point 1 [65] 0) (point 2 [66] 1) 7)) = .ok true :=
  clone_partial intFlt shapes_good (by
      intro d hd f hf
      simp only [shapes, List.mem_cons, List.not_mem_nil, or_false] at hd
      rcases hd with rfl | rfl | rfl <;> cases hf)
    (d := ⟨"Line".toList, _, .derived, false, false⟩) rfl rfl _
    (line_typed _ _ _ (point_typed _ _ _ (by decide)) (point_typed _ _ _ (by decide)))
    (by simp [line, point, NoNull, NoNulls]) (by simp [line, point, SelfEq, SelfEq.SelfEqs])

theorem releaseAll_gone : ∀ (l heap : List Nat) (a : Nat), a ∉ heap → a ∈ l →
    releaseAll l heap = .ub
  | [], _, _, _, h => by cases h
  | b :: l, heap, a, hn, hm => by
    simp only [releaseAll, release]
    split
    · next hb =>
      have hab : a ≠ b := fun h => hn (h ▸ hb)
      simp only [List.mem_cons, hab, false_or] at hm
      simp only [Res.ok_bind]
      exact releaseAll_gone l _ a (fun h => hn (List.mem_of_mem_erase h)) hm
    · rfl

theorem releaseAll_append : ∀ (l m heap : List Nat),
    releaseAll (l ++ m) heap = (releaseAll l heap >>= releaseAll m)
  | [], m, heap => rfl
  | a :: l, m, heap => by
    simp only [List.cons_append, releaseAll]
    cases release a heap with
    | ok h => simp only [Res.ok_bind]; exact releaseAll_append l m h
    | panic => rfl
    | ub => rfl

theorem releaseAll_after : ∀ (l heap h : List Nat), heap.Nodup → releaseAll l heap = .ok h →
    h.Nodup ∧ ∀ a ∈ l, a ∉ h
  | [], _, _, hn, hr => by cases hr; exact ⟨hn, by simp⟩
  | a :: l, heap, h, hn, hr => by
    simp only [releaseAll, release] at hr
    split at hr
    · simp only [Res.ok_bind] at hr
      obtain ⟨h1, h2⟩ := releaseAll_after l _ h (hn.erase a) hr
      refine ⟨h1, ?_⟩
      intro b hb
      simp only [List.mem_cons] at hb
      rcases hb with rfl | hb
      · intro hm
        have sub : ∀ (l g h : List Nat), releaseAll l g = .ok h → ∀ x ∈ h, x ∈ g := by
          intro l
          induction l with
          | nil => intro g h e x hx; cases e; exact hx
          | cons c l ih =>
            intro g h e x hx
            simp only [releaseAll, release] at e
            split at e
            · simp only [Res.ok_bind] at e
              exact List.mem_of_mem_erase (ih _ _ e x hx)
            · cases e
        exact hn.not_mem_erase (sub _ _ _ hr b hm)
      · exact h2 b hb
    · cases hr

/-- C73: for every type, given by the blocks `own v` its values free when they are dropped, and
every heap: dropping a value and its derived clone is defined exactly when
the value owns nothing. -/
theorem clone_drop_iff (own : Val D → List Nat) (v : Val D) (heap : List Nat) (hn : heap.Nodup) :
    (∃ h, releaseAll (own v ++ own (derivedClone v)) heap = .ok h) ↔ own v = [] := by
  constructor
  · rintro ⟨h, he⟩
    rw [releaseAll_append] at he
    obtain ⟨h1, e1, e2⟩ : ∃ h1, releaseAll (own v) heap = .ok h1 ∧
        releaseAll (own (derivedClone v)) h1 = .ok h := by
      cases hr : releaseAll (own v) heap with
      | ok h1 => exact ⟨h1, rfl, by simpa [hr] using he⟩
      | panic => simp [hr] at he
      | ub => simp [hr] at he
    cases ho : own v with
    | nil => rfl
    | cons a l =>
      have ha := (releaseAll_after _ _ _ hn e1).2 a (by simp [ho])
      have : own (derivedClone v) = own v := rfl
      rw [releaseAll_gone (own (derivedClone v)) h1 a ha (by simp [this, ho])] at e2
      cases e2
  · intro h
    have : own (derivedClone v) = own v := rfl
    rw [this, h]
    exact ⟨heap, rfl⟩

/-- C73, violated: a struct with one `String` (which owns the block of its text) and its clone:
dropping both frees the block twice, though dropping the struct alone is fine. -/
theorem clone_string_violated (v : Val D) (a : Nat) (own : Val D → List Nat) (h : own v = [a]) :
    releaseAll (own v) [a] = .ok [] ∧ releaseAll (own v ++ own (derivedClone v)) [a] = .ub := by
  have : own (derivedClone v) = own v := rfl
  rw [this, h]
  simp [releaseAll, release]

end Verif.Derive
