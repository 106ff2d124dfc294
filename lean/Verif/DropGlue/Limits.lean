import Verif.DropGlue.Props

/-! # A program with right destructors, and programs with wrong ones (C161) -/

namespace Verif.DropGlue
open Spec

theorem split_at {α : Type} {P A B : List α} {i : α} (h : P = A ++ i :: B) : ∃ k, k < P.length ∧ A = P.take k ∧ P[k]? = some i ∧ B = P.drop (k + 1) := by
  refine ⟨A.length, ?_, ?_, ?_, ?_⟩
  · rw [h]; simp
  · rw [h]; simp
  · rw [h]; simp
  · rw [h]; simp

theorem sample_split {A B : List Item} {i : Item} (h : sample = A ++ i :: B) :
    ∃ k ∈ [0, 1, 2, 3, 4, 5, 6], A = sample.take k ∧ sample[k]? = some i ∧ B = sample.drop (k + 1) := by
  obtain ⟨k, hk, hh⟩ := split_at h
  have hk : k < 7 := hk
  exact ⟨k, by simp; omega, hh⟩

/-- The program `sample` meets the hypotheses of the theorems. -/
theorem sample_fine : Fine sample where
  names := by decide +kernel
  impl := by
    intro A B n h
    obtain ⟨k, hk, rfl, hi, rfl⟩ := sample_split h
    simp only [List.mem_cons, List.not_mem_nil, or_false] at hk
    rcases hk with rfl | rfl | rfl | rfl | rfl | rfl | rfl <;> (simp [sample] at hi)
    · subst hi; exact ⟨⟨"String".toList, .struct, [("p".toList, .ptr)]⟩, by decide +kernel, rfl, by decide⟩
    · subst hi; exact ⟨⟨"Vec".toList, .struct, [("p".toList, .ptr)]⟩, by decide +kernel, rfl, by decide⟩
  inst := by
    intro A B d t h
    obtain ⟨k, hk, rfl, hi, rfl⟩ := sample_split h
    simp only [List.mem_cons, List.not_mem_nil, or_false] at hk
    rcases hk with rfl | rfl | rfl | rfl | rfl | rfl | rfl <;> (simp [sample] at hi)
    obtain ⟨rfl, rfl⟩ := hi
    exact ⟨by decide +kernel, ⟨⟨"Vec".toList, .struct, [("p".toList, .ptr)]⟩, by decide +kernel, rfl⟩, "int".toList, by decide +kernel⟩
  generic := by
    intro d t e u h1 h2
    simp [sample] at h1 h2
    obtain ⟨_, rfl⟩ := h1
    obtain ⟨rfl, _⟩ := h2
    decide
  whole := by
    intro d t h
    simp [sample] at h
    obtain ⟨_, rfl⟩ := h
    exact .inl (by decide +kernel)
  array := by
    intro d hd x t k hm
    have : ∀ d ∈ defs sample, ∀ m ∈ d.members, m.2 = .scalar ∨ m.2 = .ptr ∨ ∃ n, m.2 = .named n := by
      intro d hd m hm
      cases h : m.2 with
      | array t k =>
        have : ∀ d ∈ defs sample, ∀ m ∈ d.members, (match m.2 with | .array _ _ => false | _ => true) = true := by decide +kernel
        have := this d hd m hm
        rw [h] at this; cases this
      | _ => simp
    rcases this d hd _ hm with h | h | ⟨n, h⟩ <;> cases h
  choice := by
    intro d hd hk
    have : ∀ d ∈ defs sample, d.kind = .struct := by decide +kernel
    exact absurd (this d hd) hk
  plain := by
    intro n h
    simp [sample] at h
    rcases h with rfl | rfl <;> decide
  prefixes := by
    intro d n h1 h2 h3
    simp [sample] at h1 h2
    rcases h2 with rfl | rfl <;> rcases h1 with rfl | rfl | rfl | rfl <;> first | rfl | exact absurd h3 (by decide +kernel)

theorem sample_ranked : Ranked sample fun n => if n = "B".toList then 2 else if n = "A".toList then 1 else 0 := by
  have : ∀ d ∈ defs sample, ∀ m ∈ d.members, (match m.2 with
      | .named k => decide ((if k = "B".toList then 2 else if k = "A".toList then 1 else 0) <
          (if d.name = "B".toList then 2 else if d.name = "A".toList then 1 else 0))
      | _ => true) = true := by decide +kernel
  intro d hd x k hm
  simpa using this d hd _ hm

/-- The hypotheses together: the members of a variable of type `B`. -/
example (p : List Step) : p ∈ destroy (final sample) 3 (.named "B".toList) ↔ ∃ m, Part sample (.named "B".toList) p m ∧ Manual sample m :=
  destroy_spec_partial sample_fine sample_ranked (by decide) p

/-! ## where it is wrong -/

theorem destroy_none {st : St} {n : Name} (h : n ∉ st.flags) (f : Nat) : destroy st f (.named n) = [] := by
  unfold destroy
  simp [h]

theorem destroy_some {st : St} {n : Name} (h : n ∈ st.flags) (f : Nat) : destroy st f (.named n) = calls st f n := by
  unfold destroy
  simp [h]

/-- A type with a destructor. -/
def str : Def := ⟨['S'], .struct, [(['p'], .ptr)]⟩

/-- C161 refuted: the elements of an array, in a member or a variable, are not destroyed.  `struct C { a: S[2]; }` -/
theorem array_violated :
    let P : List Item := [.decl str, .impl ['S'], .decl ⟨['C'], .struct, [(['a'], .array (.named ['S']) 2)]⟩]
    Part P (.named ['C']) [.member ['a'], .elem 0] ['S'] ∧ Manual P ['S'] ∧ (∀ f, destroy (final P) f (.named ['C']) = []) ∧
      Part P (.array (.named ['S']) 2) [.elem 0] ['S'] ∧ ∀ f, destroy (final P) f (.array (.named ['S']) 2) = [] := by
  intro P
  have hc : ['C'] ∉ (final P).flags := by decide +kernel
  refine ⟨.member (d := ⟨['C'], .struct, [(['a'], .array (.named ['S']) 2)]⟩) (by decide +kernel) rfl (by decide) (.elem (k := 2) (by decide) (.here _)),
    .inl (by decide +kernel), fun f => ?_, .elem (by decide) (.here _), fun f => rfl⟩
  exact destroy_none hc f

/-- C161 refuted: payloads of an enum are not destroyed, and a destructor for an enum is never called.  `enum E { V(S) }  impl Drop for E` -/
theorem enum_violated :
    let P : List Item := [.decl str, .impl ['S'], .decl ⟨['E'], .enum, [(['V'], .named ['S'])]⟩, .impl ['E']]
    Manual P ['E'] ∧ Part P (.named ['E']) [.member ['V']] ['S'] ∧ Manual P ['S'] ∧ ∀ f, destroy (final P) f (.named ['E']) = [] := by
  intro P
  have hc : ['E'] ∉ (final P).flags := by decide +kernel
  refine ⟨.inl (by decide +kernel),
    .member (d := ⟨['E'], .enum, [(['V'], .named ['S'])]⟩) (by decide +kernel) rfl (by decide) (.here _), .inl (by decide +kernel), fun f => ?_⟩
  exact destroy_none hc f

/-- C161 refuted: all members of a union are destroyed, although it holds one of them.  `union U { a: S; b: S; }` -/
theorem union_violated :
    let P : List Item := [.decl str, .impl ['S'], .decl ⟨['U'], .union, [(['a'], .named ['S']), (['b'], .named ['S'])]⟩]
    ∀ f, destroy (final P) (f + 2) (.named ['U']) = [[.member ['a']], [.member ['b']]] := by
  intro P f
  have hs : ∀ f, calls (final P) (f + 1) ['S'] = [[]] := by
    intro f
    rw [calls_succ _ _ _ str (by decide +kernel)]
    rw [if_pos (by decide +kernel)]
    rfl
  have h1 : ['S'] ∈ (final P).flags := by decide +kernel
  rw [destroy_some (by decide +kernel), calls_succ _ _ _ ⟨['U'], .union, [(['a'], .named ['S']), (['b'], .named ['S'])]⟩ (by decide +kernel)]
  rw [if_neg (by decide +kernel)]
  simp [hs, h1]

/-- C161 refuted: the members of an instance of a generic struct without a destructor of its own are not destroyed.
`struct P<T> { a: T; }` and `P<S>` -/
theorem instance_violated :
    let P : List Item := [.decl str, .impl ['S'], .decl ⟨['P'], .struct, [(['a'], .named ['T'])]⟩,
      .inst ⟨['P', '_', 'S'], .struct, [(['a'], .named ['S'])]⟩ ['P']]
    Part P (.named ['P', '_', 'S']) [.member ['a']] ['S'] ∧ Manual P ['S'] ∧ ∀ f, destroy (final P) f (.named ['P', '_', 'S']) = [] := by
  intro P
  have hc : ['P', '_', 'S'] ∉ (final P).flags := by decide +kernel
  refine ⟨.member (d := ⟨['P', '_', 'S'], .struct, [(['a'], .named ['S'])]⟩) (by decide +kernel) rfl (by decide) (.here _), .inl (by decide +kernel), fun f => ?_⟩
  exact destroy_none hc f

/-- C161 refuted: nor are they when the generic struct itself has a member with a destructor: its instances are made before the flags are
propagated.  `struct P<T> { s: S; a: T; }` and `P<int>` -/
theorem generic_member_violated :
    let P : List Item := [.decl str, .impl ['S'], .decl ⟨['P'], .struct, [(['s'], .named ['S']), (['a'], .named ['T'])]⟩,
      .inst ⟨['P', '_', 'i'], .struct, [(['s'], .named ['S']), (['a'], .scalar)]⟩ ['P']]
    ['P'] ∈ (final P).flags ∧ Part P (.named ['P', '_', 'i']) [.member ['s']] ['S'] ∧ ∀ f, destroy (final P) f (.named ['P', '_', 'i']) = [] := by
  intro P
  have hc : ['P', '_', 'i'] ∉ (final P).flags := by decide +kernel
  refine ⟨by decide +kernel,
    .member (d := ⟨['P', '_', 'i'], .struct, [(['s'], .named ['S']), (['a'], .scalar)]⟩) (by decide +kernel) rfl (by decide) (.here _), fun f => ?_⟩
  exact destroy_none hc f

/-- C161 refuted: a destructor before the struct is never called. -/
theorem order_violated :
    let P : List Item := [.impl ['S'], .decl str]
    Manual P ['S'] ∧ ∀ f, destroy (final P) f (.named ['S']) = [] := by
  intro P
  have hc : ['S'] ∉ (final P).flags := by decide +kernel
  exact ⟨.inl (by decide +kernel), destroy_none hc⟩

/-- C161 refuted: nor is the destructor of a generic struct for instances that are used before it. -/
theorem late_violated :
    let P : List Item := [.decl ⟨['B'], .struct, [(['p'], .ptr)]⟩, .inst ⟨['B', '_', 'i'], .struct, [(['p'], .ptr)]⟩ ['B'], .impl ['B']]
    Manual P ['B', '_', 'i'] ∧ ∀ f, destroy (final P) f (.named ['B', '_', 'i']) = [] := by
  intro P
  have hc : ['B', '_', 'i'] ∉ (final P).flags := by decide +kernel
  exact ⟨.inr ⟨⟨['B', '_', 'i'], .struct, [(['p'], .ptr)]⟩, ['B'], by decide +kernel, rfl, by decide +kernel⟩,
    destroy_none hc⟩

/-- C161 refuted: the destructor of a generic struct with `_` in its name is not called.  `struct A_B<T> { p: T*; }  impl Drop for A_B<T>` -/
theorem underscore_violated :
    let P : List Item := [.decl ⟨['A', '_', 'B'], .struct, [(['p'], .ptr)]⟩, .impl ['A', '_', 'B'],
      .inst ⟨['A', '_', 'B', '_', 'i'], .struct, [(['p'], .ptr)]⟩ ['A', '_', 'B']]
    Manual P ['A', '_', 'B', '_', 'i'] ∧ ∀ f, destroy (final P) f (.named ['A', '_', 'B', '_', 'i']) = [] := by
  intro P
  refine ⟨.inr ⟨⟨['A', '_', 'B', '_', 'i'], .struct, [(['p'], .ptr)]⟩, ['A', '_', 'B'], by decide +kernel, rfl, by decide +kernel⟩, fun f => ?_⟩
  rw [destroy_some (by decide +kernel)]
  cases f with
  | zero => rfl
  | succ f =>
    rw [calls_succ _ _ _ ⟨['A', '_', 'B', '_', 'i'], .struct, [(['p'], .ptr)]⟩ (by decide +kernel), if_neg (by decide +kernel)]
    rfl

/-- C161 refuted: a struct `S_T` with a member that has a destructor, next to a struct `S` with one: a function `S_T__Drop_drop` is called that
does not exist. -/
theorem clash_violated :
    let P : List Item := [.decl str, .impl ['S'], .decl ⟨['S', '_', 'T'], .struct, [(['s'], .named ['S'])]⟩]
    ¬ Manual P ['S', '_', 'T'] ∧ [] ∈ destroy (final P) 2 (.named ['S', '_', 'T']) := by
  intro P
  refine ⟨?_, by decide +kernel⟩
  rintro (h | ⟨d, t, h, _⟩)
  · exact absurd h (by decide +kernel)
  · simp [P] at h

end Verif.DropGlue
