import Verif.ImplScope.Model

/-!
# Methods are defined once, unless one of them has the first loop over an array
-/

namespace Verif.ImplScope

open Spec

/-- a method in an open `impl`, without a first loop -/
theorem parseFn_method (c : Name) (f : Fn) (s : St) {t : Name} (ht : s.impl = some t) (hl : s.slice = true ∨ f.loops = false) :
    parseFn c f s = ({ s with selfs := (c, some t) :: s.selfs }, true) := by
  have hc : (f.loops && !s.slice) = false := by rcases hl with h | h <;> simp [h]
  cases hg : f.generic <;> simp [parseFn, ht, hc, hg]

theorem parseMethods_safe (t : Name) (ms : List Fn) : ∀ s : St, s.impl = some t → (s.slice = true ∨ ∀ f ∈ ms, f.loops = false) →
    parseMethods t ms s = .ok { s with
      selfs := (ms.map fun f => (mangle t f.name, some t)).reverse ++ s.selfs
      methods := ((ms.filter fun f => !f.generic).map fun f => mangle t f.name).reverse ++ s.methods } := by
  induction ms with
  | nil => intro s _ _; rfl
  | cons f r ih =>
    intro s ht hl
    have hf : s.slice = true ∨ f.loops = false := hl.imp id fun h => h f (List.mem_cons_self ..)
    have hr : s.slice = true ∨ ∀ f ∈ r, f.loops = false := hl.imp id fun h g hg => h g (List.mem_cons_of_mem _ hg)
    simp only [parseMethods, parseFn_method _ f s ht hf, if_true]
    cases hg : f.generic
    · simp only [Bool.false_eq_true, if_false]
      rw [ih { s with selfs := (mangle t f.name, some t) :: s.selfs, methods := mangle t f.name :: s.methods } ht hr]; simp [hg]
    · simp only [if_true]
      rw [ih { s with selfs := (mangle t f.name, some t) :: s.selfs } ht hr]; simp [hg]

theorem parse_safe (p : List Top) : ∀ s : St, s.impl = none → Safe s.slice p → ∃ s', parse p s = .ok s' ∧
    s'.funcs = (functions p).reverse ++ s.funcs ∧ s'.methods = (methods p).reverse ++ s.methods ∧
    s'.plain = (functions p).reverse ++ s.plain ∧ s'.selfs = (selfs p).reverse ++ s.selfs := by
  induction p with
  | nil => intro s _ _; exact ⟨s, rfl, rfl, rfl, rfl, rfl⟩
  | cons x r ih =>
    intro s hi hs
    cases x with
    | fn f =>
      have h1 : (parseFn f.name f s).1.impl = none ∧ (parseFn f.name f s).1.slice = (s.slice || f.loops) ∧
          (parseFn f.name f s).1.funcs = (if f.generic then [] else [f.name]) ++ s.funcs ∧ (parseFn f.name f s).1.methods = s.methods ∧
          (parseFn f.name f s).1.plain = (if f.generic then [] else [f.name]) ++ s.plain ∧
          (parseFn f.name f s).1.selfs = (f.name, none) :: s.selfs := by
        cases hg : f.generic <;> cases hl : f.loops <;> cases hsl : s.slice <;> simp [parseFn, hi, hg, hl, hsl]
      obtain ⟨s', h2, h3, h4, h5, h6⟩ := ih (parseFn f.name f s).1 h1.1 (by rw [h1.2.1]; exact hs)
      refine ⟨s', by simp only [parse, parseTop]; exact h2, ?_, ?_, ?_, ?_⟩
      · rw [h3, h1.2.2.1]; cases hg : f.generic <;> simp [functions, hg]
      · rw [h4, h1.2.2.2.1]; rfl
      · rw [h5, h1.2.2.2.2.1]; cases hg : f.generic <;> simp [functions, hg]
      · rw [h6, h1.2.2.2.2.2]; simp [Spec.selfs]
    | impl t ms =>
      have hm := parseMethods_safe t ms { s with impl := some t } rfl hs.1
      obtain ⟨s', h2, h3, h4, h5, h6⟩ := ih { s with
        impl := none
        selfs := (ms.map fun f => (mangle t f.name, some t)).reverse ++ s.selfs
        methods := ((ms.filter fun f => !f.generic).map fun f => mangle t f.name).reverse ++ s.methods } rfl hs.2
      refine ⟨s', by simp only [parse, parseTop, hm]; exact h2, h3, ?_, h5, ?_⟩
      · rw [h4]; simp [Spec.methods]
      · rw [h6]; simp [Spec.selfs]
    | slice =>
      obtain ⟨s', h2, h3, h4, h5, h6⟩ := ih { s with slice := true } hi hs
      exact ⟨s', by simp only [parse, parseTop]; exact h2, h3, h4, h5, h6⟩

/-- **C190, partial.** If no method has the first loop over an array, every function and every method is printed once, in order, every method has a `self` of its type, and
only functions are registered under their own names.  Missing: `first_loop_violated`. -/
theorem methods_once_partial (p : List Top) (h : Safe false p) : ∃ s, parse p St.init = .ok s ∧
    s.printed = (functions p).reverse ++ (methods p).reverse ∧ s.plain = (functions p).reverse ∧ s.selfs = (selfs p).reverse := by
  obtain ⟨s, h1, h2, h3, h4, h5⟩ := parse_safe p St.init rfl h
  refine ⟨s, h1, ?_, ?_, ?_⟩
  · simp [St.printed, h2, h3, St.init]
  · simp [h4, St.init]
  · simp [h5, St.init]

/-- A program with two types, loops in a function and then in methods. -/
example : Safe false [.impl "A" [⟨"f", false, false⟩], .fn ⟨"g", true, false⟩, .impl "B" [⟨"f", true, false⟩, ⟨"h", true, true⟩]] := by
  simp [Safe]

/-- methods that are parsed when the `impl` is closed -/
theorem parseMethods_closed (t : Name) (ms : List Fn) : ∀ s : St, s.impl = none → s.slice = true → (∀ f ∈ ms, f.generic = false) →
    parseMethods t ms s = .ok { s with
      selfs := (ms.map fun f => (mangle t f.name, none)).reverse ++ s.selfs
      plain := (ms.map (·.name)).reverse ++ s.plain
      funcs := (ms.map fun f => mangle t f.name).reverse ++ s.funcs
      methods := (ms.map fun f => mangle t f.name).reverse ++ s.methods } := by
  induction ms with
  | nil => intro s _ _ _; rfl
  | cons f r ih =>
    intro s hi hs hg
    have hf := hg f (List.mem_cons_self ..)
    have hp : parseFn (mangle t f.name) f s = ({ s with
        selfs := (mangle t f.name, none) :: s.selfs, plain := f.name :: s.plain, funcs := mangle t f.name :: s.funcs }, true) := by
      simp [parseFn, hf, hi, hs]
    simp only [parseMethods, hp, hf, Bool.false_eq_true, if_true, if_false]
    rw [ih { s with
      selfs := (mangle t f.name, none) :: s.selfs, plain := f.name :: s.plain, funcs := mangle t f.name :: s.funcs
      methods := mangle t f.name :: s.methods } hi hs fun g h => hg g (List.mem_cons_of_mem _ h)]
    simp

theorem parseMethods_append (t : Name) (a b : List Fn) : ∀ s : St, parseMethods t (a ++ b) s = (parseMethods t a s).bind (parseMethods t b) := by
  induction a with
  | nil => intro s; rfl
  | cons f r ih =>
    intro s
    simp only [List.cons_append, parseMethods]
    split
    · rw [ih]
    · rfl

/-- **C190 is violated.** If the first loop over an array is in a method, that method and all behind it in the `impl` are printed twice, which C rejects; those behind it have a
`self` without a type, and are registered as functions under their own names. -/
theorem first_loop_violated (t : Name) (a r : List Fn) (f : Fn) (ha : ∀ g ∈ a, g.loops = false) (hl : f.loops = true) (hf : f.generic = false)
    (hr : ∀ g ∈ r, g.generic = false) (s : St) (hs : s.slice = false) : ∃ s', parseTop (.impl t (a ++ f :: r)) s = .ok s' ∧
      (∀ g ∈ f :: r, mangle t g.name ∈ s'.funcs ∧ mangle t g.name ∈ s'.methods ∧ 2 ≤ s'.printed.count (mangle t g.name)) ∧
      (∀ g ∈ r, (mangle t g.name, none) ∈ s'.selfs ∧ g.name ∈ s'.plain) := by
  have h1 : ∃ u, parseMethods t a { s with impl := some t } = .ok u ∧ u.impl = some t ∧ u.slice = false ∧ u.funcs = s.funcs :=
    ⟨_, parseMethods_safe t a { s with impl := some t } rfl (.inr ha), rfl, hs, rfl⟩
  obtain ⟨v, h1, hv1, hv2, hv3⟩ := h1
  have h2 : ∀ u : St, u.impl = some t → u.slice = false → parseFn (mangle t f.name) f u = ({ u with
      selfs := (mangle t f.name, some t) :: u.selfs, slice := true, impl := none, funcs := mangle t f.name :: u.funcs }, true) := by
    intro u hu hus; simp [parseFn, hf, hl, hu, hus]
  have h3 : ∃ u, parseMethods t (a ++ f :: r) { s with impl := some t } = .ok u ∧
      u.funcs = (r.map fun f => mangle t f.name).reverse ++ (mangle t f.name :: s.funcs) ∧
      (∃ q, u.methods = (r.map fun f => mangle t f.name).reverse ++ (mangle t f.name :: q)) ∧
      (∃ q, u.selfs = (r.map fun f => (mangle t f.name, none)).reverse ++ q) ∧ (∃ q, u.plain = (r.map (·.name)).reverse ++ q) := by
    rw [parseMethods_append, h1]
    simp only [Res.bind, parseMethods]
    rw [h2 v hv1 hv2]
    simp only [hf, Bool.false_eq_true, if_true, if_false]
    rw [parseMethods_closed t r { v with
      selfs := (mangle t f.name, some t) :: v.selfs, slice := true, impl := none, funcs := mangle t f.name :: v.funcs
      methods := mangle t f.name :: v.methods } rfl rfl hr]
    exact ⟨_, rfl, by simp only [hv3], ⟨_, rfl⟩, ⟨_, rfl⟩, ⟨_, rfl⟩⟩
  obtain ⟨u, h4, h5, ⟨q6, h6⟩, ⟨q7, h7⟩, ⟨q8, h8⟩⟩ := h3
  refine ⟨{ u with impl := none }, by simp only [parseTop, h4], ?_, ?_⟩
  · intro g hg
    have hm : ∀ q, mangle t g.name ∈ (r.map fun f => mangle t f.name).reverse ++ (mangle t f.name :: q) := by
      intro q
      rcases List.mem_cons.mp hg with rfl | h
      · simp
      · exact List.mem_append_left _ (List.mem_reverse.mpr (List.mem_map.mpr ⟨g, h, rfl⟩))
    have m1 : mangle t g.name ∈ u.funcs := by rw [h5]; exact hm _
    have m2 : mangle t g.name ∈ u.methods := by rw [h6]; exact hm _
    refine ⟨m1, m2, ?_⟩
    simp only [St.printed, List.count_append]
    have c1 := List.count_pos_iff.mpr m1
    have c2 := List.count_pos_iff.mpr m2
    omega
  · intro g hg
    refine ⟨?_, ?_⟩
    · show _ ∈ u.selfs
      rw [h7]; exact List.mem_append_left _ (List.mem_reverse.mpr (List.mem_map.mpr ⟨g, hg, rfl⟩))
    · show _ ∈ u.plain
      rw [h8]; exact List.mem_append_left _ (List.mem_reverse.mpr (List.mem_map.mpr ⟨g, hg, rfl⟩))

/-- **C190 is violated.** If a generic method has the first loop, or comes behind the method that has it, the compiler reads through `NULL`. -/
theorem generic_violated (t : Name) (a r : List Fn) (f : Fn) (ha : ∀ g ∈ a, g.loops = false) (hl : f.loops = true)
    (hr : f.generic = true ∨ ∃ b g c, r = b ++ g :: c ∧ (∀ h ∈ b, h.generic = false) ∧ g.generic = true) (s : St) (hs : s.slice = false) :
    parseTop (.impl t (a ++ f :: r)) s = .ub := by
  have h1 : ∃ u, parseMethods t a { s with impl := some t } = .ok u ∧ u.impl = some t ∧ u.slice = false ∧ u.funcs = s.funcs :=
    ⟨_, parseMethods_safe t a { s with impl := some t } rfl (.inr ha), rfl, hs, rfl⟩
  obtain ⟨v, h1, hv1, hv2, hv3⟩ := h1
  have h3 : parseMethods t (a ++ f :: r) { s with impl := some t } = .ub := by
    rw [parseMethods_append, h1]
    simp only [Res.bind, parseMethods]
    cases hf : f.generic with
    | true => simp [parseFn, hf, hl, hv2]
    | false =>
      have h2 : ∀ u : St, u.impl = some t → u.slice = false → parseFn (mangle t f.name) f u = ({ u with
          selfs := (mangle t f.name, some t) :: u.selfs, slice := true, impl := none, funcs := mangle t f.name :: u.funcs }, true) := by
        intro u hu hus; simp [parseFn, hf, hl, hu, hus]
      rw [h2 v hv1 hv2]
      simp only [Bool.false_eq_true, if_true, if_false]
      rcases hr with h | ⟨b, g, c, rfl, hb, hg⟩
      · simp [hf] at h
      · rw [parseMethods_append, parseMethods_closed t b { v with
      selfs := (mangle t f.name, some t) :: v.selfs, slice := true, impl := none, funcs := mangle t f.name :: v.funcs
      methods := mangle t f.name :: v.methods } rfl rfl hb]
        simp [Res.bind, parseMethods, parseFn, hg]
  simp only [parseTop, h3]

/-- `impl Grid { fn sum(self) { for x in [1, 2] { .. } } fn width(self) { .. } }` at the beginning of a program, and behind a function with a loop. -/
example :
    let g : Top := .impl "Grid" [⟨"sum", true, false⟩, ⟨"width", false, false⟩]
    parse [g] St.init = .ok ⟨none, true, ["Grid__width", "Grid__sum"], ["Grid__width", "Grid__sum"], ["width"],
      [("Grid__width", none), ("Grid__sum", some "Grid")]⟩ ∧
    parse [.fn ⟨"f", true, false⟩, g] St.init = .ok ⟨none, true, ["f"], ["Grid__width", "Grid__sum"], ["f"],
      [("Grid__width", some "Grid"), ("Grid__sum", some "Grid"), ("f", none)]⟩ := by decide +kernel

end Verif.ImplScope
