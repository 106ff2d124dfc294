import Verif.Complete.Props

/-!
# Where completion and the outline do not do what is meant
-/

namespace Verif.Complete
open Spec

/-! ## C152 -/

/-- **Variables declared below the cursor are offered**: the node of a `let` has no line. -/
theorem below_violated {f : Fn} {p : Place} {x : Str} {ty : Option Str} {l line : Nat} {cs b a : List Node}
    (hp : p = .here b a) (hf : f.body = some p.node) (hs : size p.node < 1024) (h : .mk (.var x ty (stamp false l)) cs ∈ a)
    (hl : 0 < line) : x ∈ locals f line := by
  subst hp
  exact (locals_iff hf hs line x).2 (Or.inr ⟨ty, 0, hl, .block (List.mem_append_right _ h) .var⟩)

/-- **Variables of blocks that have ended are offered.** -/
theorem ended_violated {f : Fn} {p : Place} {x : Str} {ty : Option Str} {l line : Nat} {cs cs' b a : List Node}
    (hp : p = .here b a) (hf : f.body = some p.node) (hs : size p.node < 1024)
    (hb : .mk .block cs ∈ b) (h : .mk (.var x ty (stamp false l)) cs' ∈ cs) (hl : 0 < line) : x ∈ locals f line := by
  subst hp
  exact (locals_iff hf hs line x).2 (Or.inr ⟨ty, 0, hl, .block (List.mem_append_left _ hb) (.block h .var)⟩)

/-- Neither is in scope. -/
example : ¬ InScope (.here [.mk .block [.mk (.var ['y'] none 0) []]] [.mk (.var ['z'] none 0) []]) ['y'] ∧
    ¬ InScope (.here [.mk .block [.mk (.var ['y'] none 0) []]] [.mk (.var ['z'] none 0) []]) ['z'] := by
  constructor <;>
  · rintro ⟨ty, l, cs, h⟩
    cases h with
    | here h => simp at h

/-- **Variables of a `loop`, a `for … in`, a `match` and the like are never offered**: the cursor is in a block in such a
statement, behind the variable. -/
theorem loop_violated {f : Fn} {b a b' a' : List Node} {x : Str} {ty : Option Str} {l line : Nat} {cs : List Node}
    (hf : f.body = some (.mk .block (b ++ .mk .other [(.mk .block (b' ++ .mk (.var x ty l) cs :: a'))] :: a)))
    (hs : size (.mk .block (b ++ .mk .other [(.mk .block (b' ++ .mk (.var x ty l) cs :: a'))] :: a)) < 1024)
    (hx : x ∉ f.params.map (·.1)) (hn : ∀ n ∈ b ++ a, ∀ ty l, ¬ Decl n x ty l) :
    InScope (.within .block b (.within .other [] (.here (b' ++ [.mk (.var x ty l) cs]) a') []) a) x ∧ x ∉ locals f line := by
  refine ⟨⟨ty, l, cs, .inner (.inner (.here (by simp)))⟩, fun h => ?_⟩
  rcases (locals_iff hf hs line x).1 h with h | ⟨ty, l, -, h⟩
  · exact hx h
  · cases h with
    | block hm h =>
      rcases List.mem_append.1 hm with hm | hm
      · exact hn _ (List.mem_append_left _ hm) _ _ h
      · rcases List.mem_cons.1 hm with rfl | hm
        · cases h
        · exact hn _ (List.mem_append_right _ hm) _ _ h

/-- **A function of 1023 statements or more, one behind the other, has no variables**: with all places of the queue taken the
search ends before the first statement. -/
theorem many_violated {f : Fn} {cs : List Node} (hf : f.body = some (.mk .block cs)) (hc : 1023 ≤ cs.length) (line : Nat) :
    locals f line = f.params.map (·.1) := by
  have hv : visited (.mk .block cs) = [.mk .block cs] := by
    unfold visited
    rw [visit, if_pos (by decide)]
    simp only [Node.children, List.nil_append, List.length_take]
    rw [show min (1024 - 1) cs.length = 1023 by omega]
    congr 1
    cases hq : cs.take (1024 - 1) with
    | nil => rw [visit]
    | cons n q => rw [visit, if_neg (by decide)]
  unfold locals
  rw [hf]
  simp only [hv]
  simp [Node.kind]

/-- **The variable of an `autofree let` on the line above the cursor is not offered**: one line is counted from 1, the other
from 0. -/
theorem autofree_violated {f : Fn} {b : Node} (hf : f.body = some b) (hs : size b < 1024) {x : Str} {d : Nat}
    (hx : x ∉ f.params.map (·.1)) (hu : ∀ ty l, Decl b x ty l → l = stamp true (d + 1)) : x ∉ locals f (d + 1) := by
  intro h
  rcases (locals_iff hf hs _ x).1 h with h | ⟨ty, l, hl, h⟩
  · exact hx h
  · have := hu _ _ h
    unfold stamp at this
    simp only [if_true] at this
    omega

/-- **Behind the end of a function, its variables are offered**, whatever stands there: methods of an `impl`, other
declarations, or nothing.  Only the next function of the file ends them. -/
theorem outside_violated {fs gs : List Fn} {f : Fn} {line : Nat} (h0 : 0 < f.line) (h1 : f.line - 1 ≤ line)
    (hf : ∀ g ∈ fs, g.line < f.line) (hg : ∀ g ∈ gs, line < g.line - 1) {is : List Item} (hi : functions is = fs ++ f :: gs)
    (c : Ctx) {x : Str} (hx : x ∈ locals f line) : x ∈ general c (target (functions is) line) line := by
  rw [hi, target_around h0 h1 hf hg]
  exact List.mem_append_right _ hx

/-- **A function of an imported file takes the place of the function around the cursor**, when it is on a later line of its
file, above the line of the cursor. -/
theorem imported_violated {f g : Fn} (h0 : 0 < f.line) {line : Nat} (hfg : f.line < g.line) (hg : g.line - 1 ≤ line) :
    target (functions [.imports [.fn g], .fn f]) line = some g ∧ target (functions [.fn f]) line = some f := by
  have hf : functions [.imports [.fn g], .fn f] = [g, f] := rfl
  have hf' : functions [.fn f] = [f] := rfl
  rw [hf, hf']
  unfold target search below
  refine ⟨?_, ?_⟩
  · rw [if_pos ⟨by omega, hg, rfl⟩, search, if_neg, search]
    rintro ⟨-, -, h⟩
    have := of_decide_eq_true h
    omega
  · rw [if_pos ⟨h0, by omega, rfl⟩, search]

/-- What is kept of functions by a list of declarations. -/
theorem foldl_funcs (is : List Item) : ∀ c : Ctx, (is.foldl add c).funcs =
    (is.filterMap fun i => match i with | .fn f => some f.name | _ => none).reverse ++ c.funcs := by
  induction is with
  | nil => intro c; rfl
  | cons i is ih =>
    intro c
    rw [List.foldl_cons, ih]
    cases i <;> simp [add]

/-- **Names are offered once for every change of their file**: behind `k` changes a function is in the list `k` times. -/
theorem again_violated (c : Ctx) (f : Fn) (hc : f.name ∉ c.funcs) : ∀ k,
    ((List.replicate k [Item.fn f]).foldl update c).funcs.count f.name = k := by
  have H : ∀ k (c : Ctx), ((List.replicate k [Item.fn f]).foldl update c).funcs.count f.name = k + c.funcs.count f.name := by
    intro k
    induction k with
    | zero => intro c; simp
    | succ k ih =>
      intro c
      rw [List.replicate_succ, List.foldl_cons, ih]
      simp [update, nodes, nodesOf, add]
      omega
  intro k
  rw [H, List.count_eq_zero_of_not_mem hc, Nat.add_zero]

/-- **A function that has been removed is offered on**: whatever the files become, a name once known stays. -/
theorem removed_violated (c : Ctx) {x : Str} (hx : x ∈ c.funcs) (edits : List (List Item)) (f : Option Fn) (line : Nat) :
    x ∈ general (edits.foldl update c) f line := by
  have h : x ∈ (edits.foldl update c).funcs := by
    induction edits generalizing c with
    | nil => exact hx
    | cons is edits ih =>
      rw [List.foldl_cons]
      apply ih
      unfold update
      rw [foldl_funcs]
      exact List.mem_append_right _ hx
  unfold general
  exact List.mem_append_left _ (List.mem_append_right _ h)

/-- A function stays behind an empty file. -/
example : "gone".toList ∈ general ([[], [Item.fn ⟨"f".toList, 1, 4, [], none⟩]].foldl update
    (update {} [.fn ⟨"gone".toList, 1, 4, [], none⟩])) none 3 :=
  removed_violated _ (by decide) _ _ _

/-! ## C151 -/

/-- **The fields of an outer variable of the same name are offered**: `{ let x: s; { let x: t; x.` has those of `s`. -/
theorem shadow_violated {f : Fn} {x s t : Str} {l l' : Nat} {cs cs' b a b' a' : List Node} (hb : b = [])
    (hf : f.body = some (Place.node (.within .block (.mk (.var x (some s) l) cs :: b)
      (.here (b' ++ [.mk (.var x (some t) l') cs']) a') a))) (ha : a.length < 900) (hx : x ∉ f.params.map (·.1)) :
    localType (some f) x = some s := by
  subst hb
  have h1 : f.params.find? (fun p => p.1 = x) = none := by
    rw [List.find?_eq_none]
    intro p hp' e
    exact hx (List.mem_map.2 ⟨p, hp', of_decide_eq_true e⟩)
  unfold localType
  simp only [h1, Option.bind_none]
  unfold findLocal
  rw [hf]
  simp only
  rw [if_neg (by simpa using hx)]
  have hv : ∃ q, visited (Place.node (.within .block [.mk (.var x (some s) l) cs]
      (.here (b' ++ [.mk (.var x (some t) l') cs']) a') a)) =
      Place.node (.within .block [.mk (.var x (some s) l) cs] (.here (b' ++ [.mk (.var x (some t) l') cs']) a') a) ::
        .mk (.var x (some s) l) cs :: q := by
    unfold visited
    rw [visit, if_pos (by decide)]
    simp only [Place.node, Node.children, List.nil_append, List.cons_append, List.length_take]
    rw [List.take_cons (by decide), visit, if_pos (by simp only [List.length_cons]; omega)]
    exact ⟨_, rfl⟩
  obtain ⟨q, hq⟩ := hv
  rw [hq, List.findSome?_cons_of_isNone (by rfl), List.findSome?_cons_of_isSome (by simp [Node.kind])]
  simp [Node.kind]

/-- **Behind `a.b.` the name is `b`**: the fields of a variable of that name are offered, not those of the field. -/
theorem chain_violated {a b : Str} (hb : ∀ c ∈ b, isIdent c = true) (hne : b ≠ []) : nameBefore (a ++ '.' :: b) = b := by
  have := nameBefore_spec (l := a ++ ['.']) (x := b) (bl := []) hb hne (fun c h => nomatch h) (fun c h => by
    rw [List.getLast?_append] at h
    cases h
    rfl)
  rw [List.append_nil, List.append_assoc, List.cons_append, List.nil_append] at this
  exact this

/-- **A value of type `const S` has no fields**: the general list is offered, unless a struct is called `const S`. -/
theorem const_violated (c : Ctx) {n : Str} (hn : ∀ s ∈ c.structs, ' ' ∉ s.1) : fieldsOf c ("const ".toList ++ n) = none := by
  unfold fieldsOf
  rw [Option.map_eq_none_iff, List.find?_eq_none]
  intro s hs e
  apply hn s hs
  rw [of_decide_eq_true e]
  unfold cleanName
  rw [if_neg (by simp [List.isPrefixOf])]
  simp

/-- **A column behind the end of the text is read outside of it.** -/
theorem column_violated (c : Ctx) (is : List Item) (src : Str) (line col : Nat) (h : (fromLine line src).length + 1 < col) :
    completion c is src line col = .ub := by
  unfold completion
  simp only
  rw [if_pos (by omega), if_pos (by omega)]

/-- **A name of 256 characters before a dot overruns the server's buffer.** -/
theorem long_violated (c : Ctx) (is : List Item) {x r : Str} (hx : ∀ c ∈ x, isIdent c = true) (hl : 256 ≤ x.length) :
    completion c is (x ++ '.' :: r) 0 (x.length + 1) = .ub := by
  have hne : x ≠ [] := by intro e; subst e; simp at hl
  unfold completion
  simp only [show fromLine 0 (x ++ '.' :: r) = x ++ '.' :: r by rw [fromLine]]
  rw [if_pos (Nat.succ_pos _), Nat.add_sub_cancel, if_neg (by rw [List.length_append]; omega),
    if_pos (by rw [List.getElem?_append_right (Nat.le_refl _), Nat.sub_self]; rfl), List.take_left]
  have := nameBefore_spec (l := []) (x := x) (bl := []) hx hne (fun c h => nomatch h) (fun c h => nomatch h)
  rw [List.nil_append, List.append_nil] at this
  rw [this, if_neg hne, if_pos hl]

/-! ## C153 -/

/-- **Structs, enums and constants are listed at the beginning of the file**, wherever they are. -/
theorem place_violated (is : List Item) : ∀ e ∈ outline is, e.kind = 23 ∨ e.kind = 10 ∨ e.kind = 14 → e.line = 0 ∧ e.col = 0 := by
  intro e he hk
  obtain ⟨i, -, hi⟩ := List.mem_filterMap.1 he
  cases i with
  | fn f => cases hi; simp at hk
  | var n l c => cases hi; simp at hk
  | struct n fs => cases hi; exact ⟨rfl, rfl⟩
  | enum n => cases hi; exact ⟨rfl, rfl⟩
  | const n => cases hi; exact ⟨rfl, rfl⟩
  | generic n => cases hi
  | other n => cases hi
  | imports fs => cases hi

/-- **Declarations of imported files are listed as those of the file**, at the lines they have there. -/
theorem foreign_violated (fs is : List Item) : outline (.imports fs :: is) = outline fs ++ outline is := by
  simp [outline, nodes, nodesOf]

/-- **Generic functions, traits, aliases and methods are not listed.** -/
theorem missing_violated (n : Str) (is : List Item) : outline (.generic n :: is) = outline is ∧ outline (.other n :: is) = outline is := by
  simp [outline, nodes, nodesOf, entry, List.filterMap_cons]

end Verif.Complete
