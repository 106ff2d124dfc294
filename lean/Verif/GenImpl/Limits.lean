import Verif.GenImpl.Props

/-! # Methods of generic structs: a program, and where it goes wrong (C166) -/

namespace Verif.GenImpl

open Generics (Name sanitize placeholder replaceTypeStr)
open GenCall (unmangle)
open Spec

/-- ```
struct Opt<T> { val: T; }
struct Vec<T> { data: T*; }
impl Vec<T> { fn get(self) -> Opt<T>; fn next(self) -> Vec<T>; }
fn main() { let a: Vec<int>; let b: Opt<f64>; }
impl Opt<T> { fn unwrap(self) -> T; }
``` -/
def sample : List Decl :=
  [.struct ⟨"Opt".toList, "T".toList, ["T".toList]⟩, .struct ⟨"Vec".toList, "T".toList, ["T*".toList]⟩,
    .impl ⟨"Vec".toList, "T".toList, [⟨"__get".toList, "Opt_T".toList, []⟩, ⟨"__next".toList, "Vec_T".toList, []⟩]⟩,
    .use ⟨"Vec".toList, "int".toList, "int".toList⟩, .use ⟨"Opt".toList, "f64".toList, "f64".toList⟩,
    .impl ⟨"Opt".toList, "T".toList, [⟨"__unwrap".toList, "T".toList, []⟩]⟩]

/-- The functions of a program. -/
def written (D : List Decl) : Option (List String) := (run 20 ⟨[], [], [], []⟩ D).map fun S => (functions S).map String.ofList

/-- The instances of a program. -/
def instances (D : List Decl) : Option (List (String × String)) := (run 20 ⟨[], [], [], []⟩ D).map fun S => S.insts.map fun i => (String.ofList i.name, String.ofList i.type)

theorem sample_written : written sample = some ["Vec_int__get", "Vec_int__next", "Opt_f64__unwrap", "Opt_int__unwrap"] := by decide +kernel

theorem sample_instances : instances sample = some [("Opt_f64", "f64"), ("Opt_int", "int"), ("Vec_int", "int")] := by decide +kernel

/-- The hypotheses are met. -/
example : ∃ S, run 20 ⟨[], [], [], []⟩ sample = some S ∧ (∀ d ∈ sample, Single d) ∧
    S.made.Perm (S.insts.flatMap fun i => (S.impls.filter fun p => p.struct = i.tpl).map fun p => (p, i)) := by
  have h : (run 20 ⟨[], [], [], []⟩ sample).isSome = true := by decide +kernel
  have hs : ∀ d ∈ sample, Single d := by
    intro d hd
    simp only [sample, List.mem_cons, List.not_mem_nil, or_false] at hd
    rcases hd with rfl | rfl | rfl | rfl | rfl | rfl <;> exact trivial
  obtain ⟨S, hS⟩ := Option.isSome_iff_exists.mp h
  exact ⟨S, hS, hs, (methods_partial hs hS).1⟩

/-! ## where it goes wrong -/

/-- The struct of the next theorem; without fields, to keep it short. -/
def boxT : Tpl := ⟨['B', 'o', 'x'], ['T'], []⟩

/-- `impl Box<T> { fn nest(self) -> Box<Box<T>>; … }`. -/
def nestImpl (ms : List Meth) : Impl := ⟨['B', 'o', 'x'], ['T'], ⟨['_', '_', 'n', 'e', 's', 't'], ['B', 'o', 'x', '_', 'B', 'o', 'x', '_', 'T'], []⟩ :: ms⟩

/-- Arguments that stay as they are. -/
structure Plain (a : Name) : Prop where
  ident : ∀ x ∈ a, Generics.isIdent x = true
  long : 3 < a.length
  last : a.drop (a.length - 3) ≠ GenCall.ptrKw

theorem Plain.box {a : Name} (h : Plain a) : Plain (['B', 'o', 'x', '_'] ++ a) := by
  refine ⟨fun x hx => ?_, by simp, ?_⟩
  · rcases List.mem_append.mp hx with h1 | hx
    · clear hx; revert x; decide
    · exact h.ident x hx
  · have hl := h.long
    have : (['B', 'o', 'x', '_'] ++ a).drop ((['B', 'o', 'x', '_'] ++ a).length - 3) = a.drop (a.length - 3) := by
      rw [List.drop_append, List.drop_eq_nil_of_le (by simp; omega), List.nil_append]
      congr 1
    rw [this]
    exact h.last

theorem Plain.unmangle {a : Name} (h : Plain a) : unmangle a = a := by
  unfold GenCall.unmangle
  rw [if_neg fun x => h.last x.2.1]

theorem Plain.ptrArg {a : Name} (h : Plain a) : ptrArg a = a := by
  unfold GenImpl.ptrArg
  rw [if_neg fun x => h.last x.2]

theorem Plain.sanitize {a : Name} (h : Plain a) : sanitize a = a := by
  have := h.ident
  have hk : Generics.structKw.isPrefixOf a = false := by
    cases hb : Generics.structKw.isPrefixOf a with
    | false => rfl
    | true =>
      obtain ⟨t, rfl⟩ := List.isPrefixOf_iff_prefix.mp hb
      have := this ' ' (by simp [Generics.structKw])
      exact absurd this (by decide)
  unfold Generics.sanitize
  rw [hk]
  show a.flatMap Generics.sanitizeChar = a
  clear hk h
  induction a with
  | nil => rfl
  | cons x s ih =>
    rw [List.flatMap_cons, ih (fun y hy => this y (by simp [hy]))]
    have hx := this x (by simp)
    have : Generics.sanitizeChar x = [x] := by
      unfold Generics.sanitizeChar
      rw [if_neg, if_neg, if_neg, if_pos hx]
      · rintro (rfl | rfl) <;> exact absurd hx (by decide)
      · rintro (rfl | rfl | rfl) <;> exact absurd hx (by decide)
      · rintro rfl; exact absurd hx (by decide)
    rw [this]; rfl

theorem nest_ret {a n : Name} (h : Plain a) :
    replaceTypeStr ['T'] a (some (['B', 'o', 'x'], n)) ['B', 'o', 'x', '_', 'B', 'o', 'x', '_', 'T'] = ['B', 'o', 'x', '_', 'B', 'o', 'x', '_'] ++ a := by
  have hc : ',' ∉ a := fun hm => absurd (h.ident _ hm) (by decide)
  have hne : a ≠ [] := by intro e; have := h.long; rw [e] at this; simp at this
  have hs : Generics.suffixRule ['T'] a ['B', 'o', 'x', '_', 'B', 'o', 'x', '_', 'T'] = some (['B', 'o', 'x', '_', 'B', 'o', 'x', '_'] ++ a) := by
    unfold Generics.suffixRule
    have h1 : (Generics.suffixOf (Generics.parts ['T'])).isSuffixOf ['B', 'o', 'x', '_', 'B', 'o', 'x', '_', 'T'] = true := by decide
    simp only [h1, if_true]
    rw [Generics.parts_single hc]
    have h2 : Generics.suffixRule.suffixOf' [a] = '_' :: a := by
      unfold Generics.suffixRule.suffixOf'
      simp [hne, h.sanitize]
    rw [h2]
    have h3 : List.take ((['B', 'o', 'x', '_', 'B', 'o', 'x', '_', 'T'] : Name).length - (Generics.suffixOf (Generics.parts ['T'])).length) ['B', 'o', 'x', '_', 'B', 'o', 'x', '_', 'T'] =
      ['B', 'o', 'x', '_', 'B', 'o', 'x'] := by decide
    rw [h3]; rfl
  rw [replaceTypeStr]
  have h1 : (if ',' ∈ (['T'] : Name) then Generics.pick ['B', 'o', 'x', '_', 'B', 'o', 'x', '_', 'T'] (Generics.parts ['T']) (Generics.parts a) else none) = none := by
    rw [if_neg (by decide)]
  rw [h1]
  simp only
  have h2 : Generics.bracket ['B', 'o', 'x', '_', 'B', 'o', 'x', '_', 'T'] = none := by decide
  split
  · rename_i r hr
    split at hr
    · rename_i i hi
      exact absurd hi (by rw [h2]; simp)
    · cases hr
  · rw [if_neg (by decide)]
    have h3 : Generics.whole ['T'] (some (['B', 'o', 'x'], n)) ['B', 'o', 'x', '_', 'B', 'o', 'x', '_', 'T'] = none := by
      unfold Generics.whole
      simp
    rw [h3, hs]

theorem nest_needs {a : Name} (h : Plain a) (ms : List Meth) (i : Inst) (hi : i.type = a) : ∃ rs, (nestImpl ms).needs [boxT] i =
    ⟨['B', 'o', 'x'], ['B', 'o', 'x', '_'] ++ a, ['B', 'o', 'x', '_'] ++ a⟩ :: rs := by
  unfold Impl.needs nestImpl
  rw [List.flatMap_cons]
  unfold Meth.needs
  simp only [hi, h.unmangle, nest_ret h]
  suffices h0 : ∃ rs, retNeeds [boxT] (['B', 'o', 'x', '_', 'B', 'o', 'x', '_'] ++ a) = ⟨['B', 'o', 'x'], ['B', 'o', 'x', '_'] ++ a, ['B', 'o', 'x', '_'] ++ a⟩ :: rs by
    obtain ⟨rs, h0⟩ := h0
    rw [h0]
    exact ⟨_, rfl⟩
  unfold retNeeds
  have h1 : ((['B', 'o', 'x', '_', 'B', 'o', 'x', '_'] ++ a : Name).contains '_' || (['B', 'o', 'x', '_', 'B', 'o', 'x', '_'] ++ a : Name).contains '<') = true := by
    simp
  rw [if_pos h1]
  refine ⟨[], ?_⟩
  show [Req.mk ['B', 'o', 'x'] (['B', 'o', 'x', '_'] ++ a) (GenImpl.ptrArg (['B', 'o', 'x', '_'] ++ a))] = _
  rw [h.box.ptrArg]

/-- A method that returns a `Box<Box<T>>`: the compiler makes instances for ever (until the stack, or the buffer of 256 bytes, is full), whatever the other
methods are. -/
theorem nest_loops_violated : ∀ (n : Nat) (ms : List Meth) (a : Name), Plain a → ∀ (insts : List Inst) (made : List (Impl × Inst)),
    (∀ i ∈ insts, i.name.length < a.length + 4) →
    inst n ⟨[boxT], [nestImpl ms], insts, made⟩ ⟨['B', 'o', 'x'], a, a⟩ = none := by
  intro n
  induction n with
  | zero => intros; rfl
  | succ n ih =>
    intro ms a h insts made hlen
    rw [inst]
    have hp : placeholder a = false := by
      unfold Generics.placeholder
      split
      · have := h.long; simp at this
      · rfl
    simp only [hp, Bool.false_eq_true, if_false]
    have hany : ¬ (insts.any fun i => i.name = (Req.mk ['B', 'o', 'x'] a a).name) = true := by
      intro hm
      obtain ⟨i, hi, he⟩ := List.any_eq_true.mp hm
      have h1 := hlen i hi
      have h2 : i.name = ['B', 'o', 'x'] ++ '_' :: Generics.sanitize a := of_decide_eq_true he
      rw [h2, h.sanitize] at h1
      simp at h1
    rw [if_neg hany]
    have hfind : [boxT].find? (fun t => t.name = ['B', 'o', 'x']) = some boxT := rfl
    simp only [hfind]
    generalize hi : (⟨(Req.mk ['B', 'o', 'x'] a a).name, ['B', 'o', 'x'], a, a⟩ : Inst) = i
    show (some (St.mk [boxT] [nestImpl ms] (i :: insts) made)).bind (fun st' => (st'.impls.filter fun p => p.struct = ['B', 'o', 'x']).foldlM
      (fun st'' p => methods (inst n) st'' p i) st') = none
    have hfil : [nestImpl ms].filter (fun p => p.struct = ['B', 'o', 'x']) = [nestImpl ms] := rfl
    rw [Option.bind_some]
    show ([nestImpl ms].filter fun p => p.struct = ['B', 'o', 'x']).foldlM _ _ = none
    rw [hfil, List.foldlM_cons]
    have hnone : methods (inst n) ⟨[boxT], [nestImpl ms], i :: insts, made⟩ (nestImpl ms) i = none := by
      unfold methods
      obtain ⟨rs, hrs⟩ := nest_needs h ms i (by rw [← hi])
      simp only [hrs]
      rw [List.foldlM_cons]
      have hl := h.long
      rw [ih ms (['B', 'o', 'x', '_'] ++ a) h.box (i :: insts) made (fun j hj => by
        rcases List.mem_cons.mp hj with rfl | hj
        · rw [← hi]
          show (['B', 'o', 'x'] ++ '_' :: sanitize a).length < _
          rw [h.sanitize]; simp
        · have := hlen j hj
          simp; omega)]
      rfl
    rw [hnone]
    rfl

/-- The hypotheses are met for `Box<Box<int>>`, say. -/
example : Plain "Box_int".toList := ⟨by decide, by decide, by decide⟩

/-- A struct with two parameters, used behind its `impl` block: no methods. -/
theorem several_violated : written [.struct ⟨"Pair".toList, "A".toList, []⟩, .impl ⟨"Pair".toList, "A".toList, [⟨"__first".toList, "A".toList, []⟩]⟩,
    .useMulti "Pair".toList ["int".toList, "f64".toList]] = some [] := by decide +kernel

/-- Used before it: the methods are there. -/
theorem several_order_violated : written [.struct ⟨"Pair".toList, "A".toList, []⟩, .useMulti "Pair".toList ["int".toList, "f64".toList],
    .impl ⟨"Pair".toList, "A".toList, [⟨"__first".toList, "A".toList, []⟩]⟩] = some ["Pair_int_f64__first"] := by decide +kernel

/-- A method that returns a struct `Vec_stats`, which has nothing to do with `Vec<T>`: an instance for a type `stats` is made. -/
theorem prefix_violated : instances [.struct ⟨"Vec".toList, "T".toList, []⟩, .impl ⟨"Vec".toList, "T".toList, [⟨"__stats".toList, "Vec_stats".toList, []⟩]⟩,
    .use ⟨"Vec".toList, "int".toList, "int".toList⟩] = some [("Vec_stats", "stats"), ("Vec_int", "int")] := by decide +kernel

/-- What the parser asks for when it reads `g<a>` where the parameters `known` are in force: only the whole argument is compared with them
(src/parser/parser_type.c:654-671). -/
def parsed (known : List Name) (g a : Name) : List Decl := if known.contains a then [] else [.use ⟨g, a, a⟩]

/-- `Vec<Opt<T>>` in generic code: an instance for the type `Opt_T` is made, which does not exist. -/
theorem nested_parameter_violated : instances ([.struct ⟨"Opt".toList, "T".toList, ["T".toList]⟩, .struct ⟨"Vec".toList, "T".toList, ["T*".toList]⟩] ++
    parsed ["T".toList] "Opt".toList "T".toList ++ parsed ["T".toList] "Vec".toList "Opt_T".toList) = some [("Vec_Opt_T", "Opt_T")] := by decide +kernel

end Verif.GenImpl
