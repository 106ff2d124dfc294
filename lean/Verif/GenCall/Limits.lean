import Verif.GenCall.Props

/-! # Instances of generic functions: a program, and where it goes wrong (C165) -/

namespace Verif.GenCall

open Generics (Name isIdent sanitize)
open Spec

/-- The types that a program puts in, as a list. -/
def uses (D : List Decl) : List Name := D.flatMap fun
  | .fn _ calls => calls.map (·.2)
  | .tpl t => (t.calls.map (·.2)).filter (· ≠ t.param)

theorem used_iff {D : List Decl} {c : Name} : Used D c ↔ c ∈ uses D := by
  unfold uses
  rw [List.mem_flatMap]
  constructor
  · rintro (⟨n, calls, g, h1, h2⟩ | ⟨t, g, h1, h2, h3⟩)
    · exact ⟨_, h1, List.mem_map.mpr ⟨_, h2, rfl⟩⟩
    · exact ⟨_, h1, List.mem_filter.mpr ⟨List.mem_map.mpr ⟨_, h2, rfl⟩, by simpa using h3⟩⟩
  · rintro ⟨d, h1, h2⟩
    cases d with
    | fn n calls =>
      obtain ⟨x, hx, rfl⟩ := List.mem_map.mp h2
      exact .inl ⟨n, calls, x.1, h1, hx⟩
    | tpl t =>
      obtain ⟨h3, h4⟩ := List.mem_filter.mp h2
      obtain ⟨x, hx, rfl⟩ := List.mem_map.mp h3
      exact .inr ⟨t, x.1, h1, hx, by simpa using h4⟩

def decOrdered : (seen : List Name) → (D : List Decl) → Decidable (Ordered seen D)
  | _, [] => isTrue trivial
  | seen, .tpl t :: D => by
    have := decOrdered (t.name :: seen) D
    exact inferInstanceAs (Decidable (_ ∧ _ ∧ _))
  | seen, .fn _ calls :: D => by
    have := decOrdered seen D
    exact inferInstanceAs (Decidable (_ ∧ _))

instance (seen : List Name) (D : List Decl) : Decidable (Ordered seen D) := decOrdered seen D

/-- The generic functions of a program. -/
def tpls (D : List Decl) : List Tpl := D.filterMap fun | .tpl t => some t | .fn _ _ => none

/-- The other functions of a program. -/
def fns (D : List Decl) : List Name := D.filterMap fun | .tpl _ => none | .fn n _ => some n

theorem mem_tpls {D : List Decl} {t : Tpl} : t ∈ tpls D ↔ Decl.tpl t ∈ D := by
  unfold tpls
  rw [List.mem_filterMap]
  constructor
  · rintro ⟨d, h1, h2⟩
    cases d <;> simp at h2
    subst h2; exact h1
  · exact fun h => ⟨_, h, rfl⟩

theorem mem_fns {D : List Decl} {n : Name} {calls : List (Name × Name)} (h : Decl.fn n calls ∈ D) : n ∈ fns D :=
  List.mem_filterMap.mpr ⟨_, h, rfl⟩

/-- The same as lists. -/
theorem Fine.of_lists {D : List Decl} (ordered : Ordered [] D)
    (used : ∀ c ∈ uses D, unmangle (sanitize c) = c ∧ (sanitize c).length ≠ 1 ∧ (∀ t ∈ tpls D, t.param ∉ GenBody.Spec.segs (sanitize c)) ∧
      (∀ t ∈ tpls D, ∀ n ∈ fns D, n ≠ t.name ++ '_' :: sanitize c) ∧
      (∀ t ∈ tpls D, ∀ u ∈ tpls D, t.name = u.name ∨ (t.name ++ ['_']).isPrefixOf (u.name ++ '_' :: sanitize c) = false))
    (params : ∀ t ∈ tpls D, t.param ≠ [] ∧ (∀ x ∈ t.param, isIdent x = true) ∧ '_' ∉ t.param ∧ (∀ x ∈ t.name, isIdent x = true) ∧
      (∀ u ∈ tpls D, t.param ∉ GenBody.Spec.segs u.name))
    (refs : ∀ t ∈ tpls D, ∀ r ∈ t.refs, (match r.item with
      | .call _ c => decide (c = t.param → r.path.all entered = true)
      | .var n => decide (∀ u ∈ tpls D, ∀ c ∈ uses D, (u.name ++ ['_']).isPrefixOf (GenBody.mangledPart t.param (sanitize c) 0 none n) = false)) = true) : Fine D where
  ordered := ordered
  undone c h := (used c (used_iff.mp h)).1
  plain c t h ht := (used c (used_iff.mp h)).2.2.1 t (mem_tpls.mpr ht)
  concrete c h x hx _ := (used c (used_iff.mp h)).2.1 (by rw [hx]; rfl)
  param t ht := ⟨(params t (mem_tpls.mpr ht)).1, (params t (mem_tpls.mpr ht)).2.1, (params t (mem_tpls.mpr ht)).2.2.1⟩
  ident t ht := (params t (mem_tpls.mpr ht)).2.2.2.1
  apart t u ht hu := (params t (mem_tpls.mpr ht)).2.2.2.2 u (mem_tpls.mpr hu)
  clear t u c ht hu h hp := by
    rcases (used c (used_iff.mp h)).2.2.2.2 t (mem_tpls.mpr ht) u (mem_tpls.mpr hu) with h | h
    · exact h
    · rw [List.isPrefixOf_iff_prefix.mpr hp] at h; cases h
  own t n calls c ht hn h := (used c (used_iff.mp h)).2.2.2.1 t (mem_tpls.mpr ht) n (mem_fns hn)
  visible t r g ht hr he := by
    have := refs t (mem_tpls.mpr ht) r hr
    rw [he] at this
    exact of_decide_eq_true this rfl
  vars t u r n c ht hu hr he h hp := by
    have := refs t (mem_tpls.mpr ht) r hr
    rw [he] at this
    have := of_decide_eq_true this u (mem_tpls.mpr hu) c (used_iff.mp h)
    rw [List.isPrefixOf_iff_prefix.mpr hp] at this; cases this

/-- ```
fn keep<T>(x: T) -> T { return x; }
fn twice<T>(x: T) -> T { if true { return keep<T>(x); } return x; }
fn wrap<U>(x_U: U) -> U { let n = keep<int>(1); return twice<U>(keep<U>(x_U)); }
fn main() { wrap<f64>(1.5); wrap<u8*>(p); twice<int>(2); }
``` -/
def sample : List Decl :=
  [.tpl ⟨"keep".toList, "T".toList, [⟨[.block, .ret], .var "x".toList⟩]⟩,
    .tpl ⟨"twice".toList, "T".toList, [⟨[.block, .if, .block, .ret, .call], .call "keep".toList "T".toList⟩, ⟨[.block, .ret], .var "x".toList⟩]⟩,
    .tpl ⟨"wrap".toList, "U".toList, [⟨[.block, .varDecl, .call], .call "keep".toList "int".toList⟩, ⟨[.block, .ret, .call], .call "twice".toList "U".toList⟩,
      ⟨[.block, .ret, .call, .call], .call "keep".toList "U".toList⟩, ⟨[.block, .ret, .call, .call], .var "x_U".toList⟩]⟩,
    .fn "main".toList [("wrap".toList, "f64".toList), ("wrap".toList, "u8*".toList), ("twice".toList, "int".toList)]]

theorem sample_fine : Fine sample := by
  apply Fine.of_lists
  · decide +kernel
  · decide +kernel
  · decide +kernel
  · decide +kernel

/-- The hypotheses are met; there are eight instances. -/
example : ∃ S, run 5 sample = some S ∧ (∀ f c, Needs sample f c ↔ ∃ i ∈ S.insts, i.tpl = f ∧ i.arg = c) :=
  let ⟨S, h⟩ := instances_partial sample_fine (fuel := 5) (by decide)
  ⟨S, h.1, h.2.1⟩

example : (run 5 sample).map (fun S => S.insts.map fun i => String.ofList i.name) =
    some ["keep_int", "keep_f64", "twice_f64", "wrap_f64", "keep_u8Ptr", "twice_u8Ptr", "wrap_u8Ptr", "twice_int"] := by decide +kernel

/-! ## where it goes wrong -/

/-- The instances that a program gets. -/
def made (D : List Decl) : Option (List (String × String × String)) :=
  (run 20 D).map fun S => S.insts.map fun i => (String.ofList i.name, String.ofList i.tpl, String.ofList i.arg)

/-- A generic function that was declared before and calls itself with its parameter: `fn f<T>(x: T) -> T; fn f<T>(x: T) -> T { return f<T>(x); }`. -/
def proto (rs : List Ref) : List Tpl := [⟨['f'], ['T'], ⟨[.block, .ret, .call], .call ['f'] ['T']⟩ :: rs⟩, ⟨['f'], ['T'], []⟩]

/-- The instance of a recursive generic function does not end: the new function is registered only after the names of its body have been looked for. -/
theorem recursive_loops_violated : ∀ (n : Nat) (rs : List Ref) (funcs : List Name) (insts : List Inst) (concrete : Name), sanitize concrete = ['i', 'n', 't'] →
    funcs.contains ['f', '_', 'i', 'n', 't'] = false → inst [] n ⟨proto rs, funcs, insts⟩ ['f'] concrete ['i', 'n', 't'] = none := by
  intro n
  induction n with
  | zero => intros; rfl
  | succ n ih =>
    intro rs funcs insts concrete h1 h2
    rw [inst]
    have h3 : (St.mk (proto rs) funcs insts).tpls.find? (fun t => t.name = ['f']) = some ⟨['f'], ['T'], ⟨[.block, .ret, .call], .call ['f'] ['T']⟩ :: rs⟩ := rfl
    rw [h3]
    have h4 : stillGeneric [] ['i', 'n', 't'] = false := rfl
    simp only [h1, h4, Bool.false_eq_true, if_false]
    have h5 : (['f'] ++ '_' :: ['i', 'n', 't'] : Name) = ['f', '_', 'i', 'n', 't'] := rfl
    rw [h5, h2]
    have h6 : ∃ ns, names ⟨['f'], ['T'], ⟨[.block, .ret, .call], .call ['f'] ['T']⟩ :: rs⟩ ['i', 'n', 't'] = ['f', '_', 'i', 'n', 't'] :: ns := by
      exact ⟨_, rfl⟩
    obtain ⟨ns, h6⟩ := h6
    rw [h6, List.foldlM_cons]
    have h7 : template (proto rs) ['f', '_', 'i', 'n', 't'] = some ⟨['f'], ['T'], ⟨[.block, .ret, .call], .call ['f'] ['T']⟩ :: rs⟩ := rfl
    rw [h7]
    have h8 : unmangle (List.drop (['f'].length + 1) ['f', '_', 'i', 'n', 't']) = ['i', 'n', 't'] := by decide
    simp only [h8]
    rw [ih rs funcs insts _ (by decide) h2]
    rfl

/-- Without the declaration the call is an error: the function is not known in its own body. -/
theorem recursive_unknown_violated (fuel : Nat) :
    run fuel [.tpl ⟨"f".toList, "T".toList, [⟨[.block, .ret, .call], .call "f".toList "T".toList⟩]⟩, .fn "main".toList [("f".toList, "int".toList)]] = none := rfl

/-- A call in a loop over a range: no instance of `keep` is made, and the C program calls a function that does not exist. -/
def inRange : List Decl :=
  [.tpl ⟨"keep".toList, "T".toList, []⟩, .tpl ⟨"many".toList, "T".toList, [⟨[.block, .forRange, .block, .call], .call "keep".toList "T".toList⟩]⟩,
    .fn "main".toList [("many".toList, "int".toList)]]

theorem in_range_violated : Needs inRange "keep".toList "int".toList ∧ made inRange = some [("many_int", "many", "int")] := by
  refine ⟨.param (t := ⟨"many".toList, "T".toList, [⟨[.block, .forRange, .block, .call], .call "keep".toList "T".toList⟩]⟩) (by decide) (.fn (n := "main".toList) (calls := [("many".toList, "int".toList)]) (by decide) (by decide)) (by decide), by decide +kernel⟩

/-- The same for every node that is not looked into. -/
theorem hidden_violated (k : Kind) (hk : entered k = false) (pre post : List Kind) (c : Name) :
    names ⟨"many".toList, "T".toList, [⟨pre ++ k :: post, .call "keep".toList "T".toList⟩]⟩ c = [] := by
  unfold names
  have : (pre ++ k :: post).all entered = false := by simp [hk]
  rw [List.filter_cons_of_neg (by simp [this])]
  rfl

/-- A pointer to the parameter: the type of the instance is `T*`, which is not a type of C. -/
theorem pointer_violated : made [.tpl ⟨"keep".toList, "T".toList, []⟩, .tpl ⟨"deref".toList, "T".toList, [⟨[.block, .call], .call "keep".toList "T*".toList⟩]⟩,
    .fn "main".toList [("deref".toList, "int".toList)]] = some [("keep_TPtr", "keep", "T*"), ("deref_int", "deref", "int")] := by decide +kernel

/-- A pointer to a struct: the instance of the inner call is made for a type `PointPtr` that does not exist. -/
theorem struct_pointer_violated : made [.tpl ⟨"keep".toList, "T".toList, []⟩, .tpl ⟨"twice".toList, "T".toList, [⟨[.block, .call], .call "keep".toList "T".toList⟩]⟩,
    .fn "main".toList [("twice".toList, "Point*".toList)]] = some [("keep_PointPtr", "keep", "PointPtr"), ("twice_PointPtr", "twice", "Point*")] := by decide +kernel

/-- Two generic functions `get_all` and `get`: the inner call of the first makes an instance of the second. -/
theorem prefix_violated : made [.tpl ⟨"get_all".toList, "T".toList, []⟩, .tpl ⟨"get".toList, "T".toList, []⟩,
    .tpl ⟨"both".toList, "T".toList, [⟨[.block, .call], .call "get_all".toList "T".toList⟩]⟩,
    .fn "main".toList [("both".toList, "int".toList)]] = some [("get_all_int", "get", "all_int"), ("both_int", "both", "int")] := by decide +kernel

/-- A variable `swap_count` beside a generic function `swap`: an instance of it is made for a type `count`. -/
theorem variable_violated : made [.tpl ⟨"swap".toList, "T".toList, []⟩, .tpl ⟨"sort".toList, "T".toList, [⟨[.block, .ret], .var "swap_count".toList⟩]⟩,
    .fn "main".toList [("sort".toList, "int".toList)]] = some [("swap_count", "swap", "count"), ("sort_int", "sort", "int")] := by decide +kernel

/-- A struct whose name is one capital letter is taken for a parameter: for no such type an instance is made. -/
theorem letter_violated (x : Char) (h : 'A' ≤ x ∧ x ≤ 'Z') : Needs [.tpl ⟨['f'], ['T'], []⟩, .fn ['m'] [(['f'], [x])]] ['f'] [x] ∧
    (run 20 [.tpl ⟨['f'], ['T'], []⟩, .fn ['m'] [(['f'], [x])]]).map (·.insts) = some [] := by
  refine ⟨.fn (n := ['m']) (calls := [(['f'], [x])]) (by simp) (by simp), ?_⟩
  have hs : sanitize [x] = [x] := by
    refine GenCall.sanitize_self ?_
    intro y hy
    rcases List.mem_singleton.mp hy with rfl
    unfold Generics.isIdent
    simp [h.1, h.2]
  have hg : stillGeneric [] (sanitize [x]) = true := by
    rw [hs]; simp only [stillGeneric]; simp [h.1, h.2]
  simp only [run, declare, Tpl.calls, List.foldlM_cons, List.foldlM_nil, useCall, inst, List.filterMap_nil, List.any_cons, List.any_nil,
    List.find?_cons, decide_true, Bool.true_or, if_true, hg, Option.map_some, Option.bind_eq_bind, Option.bind_some, Option.pure_def]

/-- A function `alloc_int` of the program is taken for the instance. -/
theorem taken_violated : made [.tpl ⟨"alloc".toList, "T".toList, []⟩, .fn "alloc_int".toList [], .fn "main".toList [("alloc".toList, "int".toList)]] = some [] := by decide +kernel

end Verif.GenCall
