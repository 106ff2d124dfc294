import Verif.Traits.Lemmas

/-! # C77 and C78: trait objects, method calls, mixins -/

namespace Verif.Traits

open Spec

/-! ## C77 -/

theorem emitTables_ok : ∀ (l : List Impl) (seen : List (Text × Text)),
    (seen ++ l.map fun i => (i.trait, i.target)).Nodup → seen.length + l.length ≤ 1024 →
    (∀ i ∈ l, i.target.length + i.trait.length < 252) →
    emitTables l seen = .ok (seen ++ l.map fun i => (i.trait, i.target))
  | [], seen, _, _, _ => by simp [emitTables]
  | i :: l, seen, hn, hl, hs => by
    have h1 : (i.trait, i.target) ∉ seen := by
      intro h
      rw [List.nodup_append] at hn
      exact hn.2.2 _ h _ (by simp) rfl
    have h2 := hs i (by simp)
    simp only [List.length_cons] at hl
    rw [emitTables, if_neg h1, if_neg (by omega), if_neg (by rintro ⟨_, _, h⟩; omega),
      emitTables_ok l _ (by simpa using hn) (by simp; omega) fun j hj => hs j (by simp [hj])]
    simp

/-- C77, one part: the compiler writes a table for every implementation. -/
theorem tables_written {P : Prog} (hg : Good P) :
    ∃ l, emitTables P.impls.reverse [] = .ok l ∧
      ∀ t s, (t, s) ∈ l ↔ ∃ i ∈ P.impls, i.trait = t ∧ i.target = s := by
  refine ⟨_, emitTables_ok P.impls.reverse [] ?_ (by simp; exact hg.few)
    (fun i hi => hg.short i (List.mem_reverse.1 hi)), ?_⟩
  · rw [List.nil_append, List.map_reverse]
    refine List.pairwise_reverse.2 ?_
    have h := hg.impls
    rw [List.nodup_iff_pairwise_ne] at h
    rw [List.pairwise_map] at h ⊢
    exact h.imp fun {a b} hab he => hab (by
      simp only [Prod.mk.injEq] at he ⊢
      exact ⟨he.2.symm, he.1.symm⟩)
  · intro t s
    simp [and_assoc, and_comm]

theorem traits_ok {structs : List Text} : ∀ (ts : List Trait) (before : List Text),
    (∀ t ∈ ts, ∀ m ∈ t.methods, GoodSig structs m) → traitsOk structs before ts
  | [], _, _ => trivial
  | t :: ts, before, h => by
    refine ⟨fun m hm => ?_, traits_ok ts _ fun x hx => h x (by simp [hx])⟩
    have g := h t (by simp) m hm
    refine ⟨?_, ?_, ?_, ?_, ?_⟩
    · rw [args_eq g]
      obtain ⟨b, hb⟩ := joined_cons "void* self".toList (m.params.map Param.text)
      rw [hb]
      exact List.append_ne_nil_of_left_ne_nil (by decide) _
    · intro p hp n hn
      exact .inl ((plain_names (g.types p hp)).1 n hn)
    · intro _ n hn
      exact .inl ((plain_names g.ret).1 n hn)
    · intro p hp n hn
      rw [(plain_names (g.types p hp)).2.1] at hn
      cases hn
    · intro n hn
      rw [(plain_names g.ret).2.1] at hn
      cases hn

/-- C77 (partial): for traits whose methods take `self`, primitives and pointers, and return such, and
implementations that have exactly the methods of their traits, with the same heads: the C compiler accepts
the program, and a method called through a trait object made from a value of a struct runs the method of
that struct, with that value and the arguments in order.
Missing from the full claim: structs by value (`struct_value_violated`), `Self` as result
(`self_result_violated`), methods without `self` (`static_violated`, `static_args_violated`),
traits in heads (`trait_param_violated`), pointers to functions (`fn_ptr_violated`), missing or different methods
(`missing_violated`, `different_violated`), names with `_` (`underscore_violated`), more
than 1024 implementations (`many_violated`). -/
theorem dispatch_partial {P : Prog} (hg : Good P) :
    Accepted P ∧ ∀ i ∈ P.impls, i.trait ≠ "Copy".toList → ∀ m ∈ i.methods, ∀ (self : Int) (vs : List Int),
      vs.length = m.params.length →
      dispatch P i.trait i.target m.name self vs = .run i.target i.trait m.name self vs := by
  refine ⟨⟨nodup_map_on _ (decls_nodup hg) fun x hx y hy => decls_inj hg hx hy,
    traits_ok _ _ fun t ht => (hg.methods t ht).2, ?_⟩, ?_⟩
  · intro i hi _
    obtain ⟨t, ht, hn, hm, _⟩ := hg.complete i hi
    exact ⟨t, ht, hn, fun m h => List.mem_map.2 ⟨m, (hm m).1 h, rfl⟩⟩
  · intro i hi hc m hm self vs hl
    obtain ⟨t, ht, hn, hmm, hnd⟩ := hg.complete i hi
    have h1 : P.traits.find? (fun x => x.name = i.trait) = some t :=
      find_unique ht (by simp [hn]) fun y hy hp =>
        nodup_key (·.name) hg.traits y hy t ht (by
          have := of_decide_eq_true hp
          rw [this, hn])
    have h2 : tableOf P i.trait i.target = some i := by
      unfold tableOf
      rw [if_neg hc]
      exact find_unique (List.mem_reverse.2 hi) (by simp) fun y hy hp => by
        have := of_decide_eq_true hp
        exact nodup_key (fun i : Impl => (i.target, i.trait)) hg.impls y (List.mem_reverse.1 hy) i hi
          (by simp only [this.1, this.2])
    have hmt := (hmm m).1 hm
    have hsig := (hg.methods t ht).2 m hmt
    have h3 : t.methods.find? (fun x => x.name = m.name) = some m :=
      find_unique hmt (by simp) fun y hy hp =>
        nodup_key (·.name) (hg.methods t ht).1 y hy m hmt (of_decide_eq_true hp)
    have h4 : i.methods.find? (fun x => x.name = m.name) = some m :=
      find_unique hm (by simp) fun y hy hp =>
        nodup_key (·.name) hnd y hy m hm (of_decide_eq_true hp)
    have h5 : funcType i.target m = (true, slotType m) := by
      unfold funcType slotType
      rw [hsig.self, has_self hsig]
      simp only [Bool.not_true, Bool.and_false, Bool.false_eq_true, if_false]
      congr 2
      · exact plain_self _ _ hsig.ret
      · apply List.map_congr_left
        intro p hp
        exact plain_self _ _ (hsig.types p hp)
    unfold dispatch
    rw [h1, h2]
    simp only [h3, read_passed hsig self vs hl.symm, h4, h5, if_true]

/-! ### A case -/

/-- `fn scale(self, by: int, log: Canvas*) -> int` -/
def scale : Sig := ⟨"scale".toList, true, [⟨"by".toList, .prim "int32_t".toList⟩,
  ⟨"log".toList, .ptr (.named "Canvas".toList)⟩], .prim "int32_t".toList⟩

/-- `fn get_name(self) -> string` -/
def getName : Sig := ⟨"get_name".toList, true, [], .prim "string".toList⟩

/-- Two structs with the trait `Shape`, one in another order. -/
def shapes : Prog := ⟨["Circle".toList, "Canvas".toList],
  [⟨"Shape".toList, [scale, getName]⟩],
  [⟨"Shape".toList, "Circle".toList, [scale, getName]⟩, ⟨"Shape".toList, "Canvas".toList, [getName, scale]⟩],
  [("Circle".toList, "draw".toList)], ["main".toList]⟩

theorem shapes_good : Good shapes where
  clean := by
    intro n hn
    simp only [shapes, List.map_cons, List.map_nil, List.mem_cons, List.not_mem_nil, or_false] at hn
    rcases hn with (rfl | rfl) | rfl <;> exact ⟨by decide, by decide⟩
  structs := by decide
  traits := by decide
  apart := by decide
  methods := by
    intro t ht
    have ht : t = ⟨"Shape".toList, [scale, getName]⟩ := by simpa [shapes] using ht
    subst ht
    refine ⟨by decide, fun m hm => ?_⟩
    simp only [List.mem_cons, List.not_mem_nil, or_false] at hm
    rcases hm with rfl | rfl
    · refine ⟨rfl, ?_, by decide, ?_, ?_⟩
      · intro p hp
        simp only [scale, List.mem_cons, List.not_mem_nil, or_false] at hp
        rcases hp with rfl | rfl <;> exact ⟨by decide, by decide⟩
      · intro p hp
        simp only [scale, List.mem_cons, List.not_mem_nil, or_false] at hp
        rcases hp with rfl | rfl
        · show ',' ∉ "int32_t".toList
          decide
        · show "Canvas".toList ∈ shapes.structs ∧ ',' ∉ "Canvas".toList
          exact ⟨by decide, by decide⟩
      · show ',' ∉ "int32_t".toList
        decide
    · refine ⟨rfl, fun p hp => ?_, by decide, fun p hp => ?_, ?_⟩
      · cases hp
      · cases hp
      show ',' ∉ "string".toList
      decide
  target := by decide
  impls := by decide
  complete := by
    intro i hi
    refine ⟨⟨"Shape".toList, [scale, getName]⟩, by simp [shapes], ?_⟩
    simp only [shapes, List.mem_cons, List.not_mem_nil, or_false] at hi
    rcases hi with rfl | rfl
    · exact ⟨rfl, fun m => Iff.rfl, by decide⟩
    · refine ⟨rfl, fun m => ?_, by decide⟩
      simp only [List.mem_cons, List.not_mem_nil, or_false]
      exact or_comm
  inherent := by
    refine ⟨by decide, ?_⟩
    intro p hp
    have hp : p = ("Circle".toList, "draw".toList) := by simpa [shapes] using hp
    subst hp
    refine ⟨by decide, ?_⟩
    intro t ht m hm
    have ht : t = ⟨"Shape".toList, [scale, getName]⟩ := by simpa [shapes] using ht
    subst ht
    simp only [List.mem_cons, List.not_mem_nil, or_false] at hm
    rcases hm with rfl | rfl <;> decide
  plain := by
    refine ⟨by decide, ?_⟩
    intro f hf
    have hf : f = "main".toList := by simpa [shapes] using hf
    subst hf
    refine ⟨by decide, by decide, ?_, ?_⟩
    · intro a b h
      exact absurd (h ▸ (by simp : '_' ∈ a ++ '_' :: '_' :: b)) (by decide)
    · intro a h
      have : "_VTable".toList = '_' :: "VTable".toList := by decide
      rw [this] at h
      exact absurd (h ▸ (by simp : '_' ∈ a ++ '_' :: "VTable".toList)) (by decide)
  few := by decide
  short := by decide

example : dispatch shapes "Shape".toList "Canvas".toList "scale".toList 7 [3, 40] =
    .run "Canvas".toList "Shape".toList "scale".toList 7 [3, 40] :=
  (dispatch_partial shapes_good).2 ⟨"Shape".toList, "Canvas".toList, [getName, scale]⟩ (by simp [shapes])
    (by decide) scale (by simp) 7 [3, 40] rfl

example : String.ofList scale.callText = "self->self,  by, log" := by decide +kernel

/-! ### Where the full claim fails -/

/-- C77, violated: an implementation that lacks a method is accepted; calling it calls NULL. -/
theorem missing_violated {P : Prog} {t s : Text} {tr : Trait} {im : Impl} {m : Sig} {structs : List Text}
    (h1 : P.traits.find? (fun x => x.name = t) = some tr) (h2 : tableOf P t s = some im)
    (h3 : tr.methods.find? (fun x => x.name = m.name) = some m) (hm : GoodSig structs m)
    (h4 : m.name ∉ im.methods.map (·.name)) (self : Int) (vs : List Int) (hl : vs.length = m.params.length) :
    dispatch P t s m.name self vs = .ub := by
  have h5 : im.methods.find? (fun x => x.name = m.name) = none := find_none fun y hy => by
    rw [decide_eq_false_iff_not]
    intro e
    exact h4 (List.mem_map.2 ⟨y, hy, e⟩)
  unfold dispatch
  rw [h1, h2]
  simp only [h3, read_passed hm self vs hl.symm, h5]

/-- A program with one method in a trait, and one in its implementation for `Circle`. -/
def one (m : Sig) (ms : List Sig) : Prog :=
  ⟨["Circle".toList], [⟨"Shape".toList, [m]⟩], [⟨"Shape".toList, "Circle".toList, ms⟩], [], ["main".toList]⟩

/-- The case of `missing_violated`, with a program the C compiler accepts. -/
theorem missing_accepted : Accepted (one getName []) ∧
    dispatch (one getName []) "Shape".toList "Circle".toList "get_name".toList 1 [] = .ub := by
  refine ⟨⟨by decide, ⟨fun m hm => ?_, trivial⟩, ?_⟩, by decide +kernel⟩
  · have : m = getName := by simpa using hm
    subst this
    exact ⟨by decide, by decide, by decide, (fun p hp => by cases hp), (fun n hn => by cases hn)⟩
  · intro i hi _
    have hi : i = ⟨"Shape".toList, "Circle".toList, []⟩ := by simpa [one] using hi
    subst hi
    exact ⟨_, List.mem_singleton.2 rfl, rfl, by simp⟩

/-- C77, violated: a method with result `Self` is called with the wrong type. -/
theorem self_result_violated {P : Prog} {t s : Text} {tr : Trait} {im : Impl} {m : Text} {sg f : Sig}
    (h1 : P.traits.find? (fun x => x.name = t) = some tr) (h2 : tableOf P t s = some im)
    (h3 : tr.methods.find? (fun x => x.name = m) = some sg)
    (h4 : im.methods.find? (fun x => x.name = m) = some f)
    (h5 : sg.ret = .selfT) (h6 : f.ret = .selfT) (hs : s ≠ "void*".toList) (self : Int) (vs as : List Int)
    (ha : readArgs (sg.env self vs) sg.passed = some as) :
    dispatch P t s m self vs = .ub := by
  unfold dispatch
  rw [h1, h2]
  simp only [h3, ha, h4]
  rw [if_neg]
  intro h
  simp only [funcType, slotType, Prod.mk.injEq, h5, h6, Ty.text] at h
  exact hs h.2.1

example : dispatch (one ⟨"clone".toList, true, [], .selfT⟩ [⟨"clone".toList, true, [], .selfT⟩])
    "Shape".toList "Circle".toList "clone".toList 1 [] = .ub :=
  self_result_violated (tr := ⟨"Shape".toList, [⟨"clone".toList, true, [], .selfT⟩]⟩)
    (im := ⟨"Shape".toList, "Circle".toList, [⟨"clone".toList, true, [], .selfT⟩]⟩)
    (sg := ⟨"clone".toList, true, [], .selfT⟩) (f := ⟨"clone".toList, true, [], .selfT⟩)
    (as := [1]) (by rfl) (by rfl) (by rfl) (by rfl) rfl rfl (by decide) 1 [] (by decide +kernel)

/-- C77, violated: a trait with a method that takes nothing does not compile. -/
theorem static_violated {P : Prog} {t : Trait} {m : Sig} (ht : t ∈ P.traits) (hm : m ∈ t.methods)
    (h1 : m.self = false) (h2 : m.params = []) : ¬ Accepted P := by
  rintro ⟨_, h, _⟩
  have key : ∀ (ts : List Trait) (before : List Text), traitsOk P.structs before ts → t ∈ ts → False := by
    intro ts
    induction ts with
    | nil => intro _ _ h; cases h
    | cons x ts ih =>
      rintro before ⟨ha, hb⟩ h
      rcases List.mem_cons.1 h with rfl | h
      · exact (ha m hm).1 (by simp [Sig.args, h1, h2, joined])
      · exact ih _ hb h
  exact key _ _ h ht

/-- C77, violated: a method with parameters, but without `self`, is never called as it should be. -/
theorem static_args_violated {P : Prog} {t s : Text} {im : Impl} {m : Text} {f : Sig}
    (h2 : tableOf P t s = some im)
    (h4 : im.methods.find? (fun x => x.name = m) = some f) (h5 : f.self = false) (self : Int) (vs : List Int) :
    dispatch P t s m self vs = .ub ∨ dispatch P t s m self vs = .rejected := by
  unfold dispatch
  rw [h2]
  split
  · rename_i h
    simp only [Option.some.injEq] at h
    subst h
    split
    · exact .inr rfl
    · split
      · exact .inr rfl
      · rw [h4]
        simp only
        rw [if_neg (by simp [funcType, h5])]
        exact .inl rfl
  · exact .inr rfl

theorem in_traits {structs : List Text} {t : Trait} : ∀ (ts : List Trait) (before : List Text),
    traitsOk structs before ts → t ∈ ts → ∃ b, ∀ m ∈ t.methods, sigOk structs b m
  | [], _, _, h => by cases h
  | x :: ts, before, ⟨ha, hb⟩, h => by
    rcases List.mem_cons.1 h with rfl | h
    · exact ⟨before, ha⟩
    · exact in_traits ts _ hb h

/-- C77, violated: a trait with a method that takes or returns a struct by value does not compile. -/
theorem struct_value_violated {P : Prog} {t : Trait} {m : Sig} {n : Text} (ht : t ∈ P.traits)
    (hm : m ∈ t.methods) (hn : n ∈ P.structs)
    (h : m.ret = .named n ∨ ∃ p ∈ m.params, p.ty = .named n) : ¬ Accepted P := by
  rintro ⟨_, ha, _⟩
  obtain ⟨b, hb⟩ := in_traits _ _ ha ht
  obtain ⟨_, _, _, h4, h5⟩ := hb m hm
  rcases h with h | ⟨p, hp, h⟩
  · exact h5 n (by rw [h]; rfl) hn
  · exact h4 p hp n (by rw [h]; rfl) hn

/-- C77, violated: a method of the only trait that takes an object of the trait does not compile. -/
theorem trait_param_violated {P : Prog} {t : Trait} {m : Sig} {p : Param} (ht : P.traits = [t])
    (hm : m ∈ t.methods) (hp : p ∈ m.params) (h : p.ty = .named t.name ∨ p.ty = .ptr (.named t.name))
    (hs : t.name ∉ P.structs) : ¬ Accepted P := by
  rintro ⟨_, ha, _⟩
  rw [ht] at ha
  obtain ⟨_, h2, _⟩ := ha.1 m hm
  have : t.name ∈ p.ty.names := by rcases h with h | h <;> rw [h] <;> simp [Ty.names]
  rcases h2 p hp _ this with h | h
  · exact hs h
  · cases h

/-- C77, violated: a pointer to a function of two parameters cannot be a parameter. -/
theorem fn_ptr_violated (im : List Sig) (self : Int) (vs : List Int) :
    dispatch (one ⟨"each".toList, true, [⟨"cb".toList, .fnPtr "void (*".toList ")(int32_t, int32_t)".toList⟩],
      .prim "void".toList⟩ im) "Shape".toList "Circle".toList "each".toList self vs = .rejected := by
  have e : Sig.passed ⟨"each".toList, true, [⟨"cb".toList, .fnPtr "void (*".toList ")(int32_t, int32_t)".toList⟩],
      .prim "void".toList⟩ = ["self->self".toList, "cb)(int32_t".toList, "int32_t)".toList] := by
    decide +kernel
  have hr : readArgs (Sig.env ⟨"each".toList, true, [⟨"cb".toList, .fnPtr "void (*".toList ")(int32_t, int32_t)".toList⟩],
      .prim "void".toList⟩ self vs) ["self->self".toList, "cb)(int32_t".toList, "int32_t)".toList] = none := by
    cases vs with
    | nil => rfl
    | cons v vs => rfl
  have h2 : tableOf (one ⟨"each".toList, true, [⟨"cb".toList, .fnPtr "void (*".toList ")(int32_t, int32_t)".toList⟩],
      .prim "void".toList⟩ im) "Shape".toList "Circle".toList = some ⟨"Shape".toList, "Circle".toList, im⟩ := rfl
  unfold dispatch
  rw [h2]
  simp only [one, List.find?_cons, decide_true, e, hr]

/-- C77, violated: an implementation whose method takes other types than the trait says is accepted, and called
with the wrong type. -/
theorem different_violated {P : Prog} {t s : Text} {tr : Trait} {im : Impl} {m : Text} {sg f : Sig}
    (h1 : P.traits.find? (fun x => x.name = t) = some tr) (h2 : tableOf P t s = some im)
    (h3 : tr.methods.find? (fun x => x.name = m) = some sg)
    (h4 : im.methods.find? (fun x => x.name = m) = some f) {structs : List Text} (hg : GoodSig structs sg)
    (h5 : f.params.map (·.ty.text s) ≠ sg.params.map (·.ty.text "Self".toList))
    (self : Int) (vs : List Int) (hl : vs.length = sg.params.length) :
    dispatch P t s m self vs = .ub := by
  unfold dispatch
  rw [h1, h2]
  simp only [h3, read_passed hg self vs hl.symm, h4]
  rw [if_neg]
  intro h
  simp only [funcType, slotType, Prod.mk.injEq, hg.self, Bool.not_true, Bool.and_false,
    Bool.false_eq_true, if_false] at h
  exact h5 h.2.2

/-- The case of `different_violated`, with a program the C compiler accepts. -/
theorem different_accepted :
    let m : Text → Sig := fun ty => ⟨"grow".toList, true, [⟨"by".toList, .prim ty⟩], .prim "void".toList⟩
    Accepted (one (m "int32_t".toList) [m "double".toList]) ∧
      dispatch (one (m "int32_t".toList) [m "double".toList]) "Shape".toList "Circle".toList "grow".toList 1 [2] = .ub := by
  refine ⟨⟨by decide, ⟨fun m hm => ?_, trivial⟩, ?_⟩, by decide +kernel⟩
  · have : m = ⟨"grow".toList, true, [⟨"by".toList, .prim "int32_t".toList⟩], .prim "void".toList⟩ := by
      simpa using hm
    subst this
    exact ⟨by decide, by decide, by decide, by simp [Ty.value], by simp [Ty.value]⟩
  · intro i hi _
    have hi : i = ⟨"Shape".toList, "Circle".toList, [⟨"grow".toList, true, [⟨"by".toList, .prim "double".toList⟩],
      .prim "void".toList⟩]⟩ := by simpa [one] using hi
    subst hi
    exact ⟨_, List.mem_singleton.2 rfl, rfl, by simp⟩

/-- C77, violated: the tables of trait `T` for `A_B` and of trait `B_T` for `A` have the same name. -/
theorem underscore_violated {P : Prog} {i j : Impl} (hi : i ∈ P.impls) (hj : j ∈ P.impls) (a b t : Text)
    (h1 : i.target = a ++ '_' :: b ∧ i.trait = t) (h2 : j.target = a ∧ j.trait = b ++ '_' :: t)
    (hc : i.trait ≠ "Copy".toList ∧ j.trait ≠ "Copy".toList) : ¬ Accepted P := by
  rintro ⟨hn, _⟩
  have hm : ∀ k ∈ P.impls, k.trait ≠ "Copy".toList → Decl.table k.target k.trait ∈ decls P := by
    intro k hk hc
    simp only [decls, List.mem_append, List.mem_flatMap]
    exact .inl (.inl (.inr ⟨k, hk, .inl (by rw [if_neg hc]; simp)⟩))
  have := nodup_key cname hn _ (hm i hi hc.1) _ (hm j hj hc.2) (by
    simp only [cname, h1.1, h1.2, h2.1, h2.2, List.append_assoc, List.cons_append])
  simp only [Decl.table.injEq, h1.1, h2.1] at this
  have := congrArg List.length this.1
  simp at this

theorem emitTables_ub : ∀ (l : List Impl) (seen : List (Text × Text)),
    (seen ++ l.map fun i => (i.trait, i.target)).Nodup → seen.length ≤ 1024 → 1024 < seen.length + l.length →
    emitTables l seen = .ub
  | [], _, _, h1, h2 => by simp at h2; omega
  | i :: l, seen, hn, h1, h2 => by
    have hi : (i.trait, i.target) ∉ seen := by
      intro h
      rw [List.nodup_append] at hn
      exact hn.2.2 _ h _ (by simp) rfl
    rw [emitTables, if_neg hi]
    split
    · rfl
    · split
      · rfl
      · exact emitTables_ub l _ (by simpa using hn) (by simp; omega) (by simp at h2 ⊢; omega)

/-- C77, violated: with more than 1024 implementations the compiler writes past the end of its table. -/
theorem many_violated (l : List Impl) (hn : (l.map fun i => (i.trait, i.target)).Nodup) (hl : 1024 < l.length) :
    emitTables l.reverse [] = .ub := by
  refine emitTables_ub _ _ ?_ (by simp) (by simpa using hl)
  rw [List.nil_append, List.map_reverse]
  exact List.pairwise_reverse.2 (hn.imp fun h => h.symm)

/-! ## C78 -/

theorem lookup_eq {P Q : Prog} (hg : Good P) (hq : Part Q P) {s m : Text} (hs : s ∈ P.structs)
    (hu : Unqualified P m) :
    (((s, m) ∈ Q.inherent → lookup Q s m = some (cname (.meth s m))) ∧
    ((s, m) ∉ Q.inherent → ∀ t, (∃ i ∈ Q.impls, i.target = s ∧ m ∈ i.methods.map (·.name)) →
      (∀ i ∈ Q.impls, i.target = s → m ∈ i.methods.map (·.name) → i.trait = t) →
      lookup Q s m = some (cname (.tmeth s t m))) ∧
    ((s, m) ∉ Q.inherent → (∀ i ∈ Q.impls, i.target = s → m ∉ i.methods.map (·.name)) →
      lookup Q s m = none)) := by
  have ht : ∀ i ∈ Q.impls, i.trait ∈ P.traits.map (·.name) := by
    intro i hi
    obtain ⟨t, ht, hn, _⟩ := hg.complete i (hq.impls i hi)
    exact List.mem_map.2 ⟨t, ht, hn⟩
  refine ⟨fun h => ?_, fun h t hex hun => ?_, fun h hno => ?_⟩
  · unfold lookup
    rw [if_pos ((meth_funcs hg hq hs hu.1).2 h)]
  · obtain ⟨i, hi, his, him⟩ := hex
    unfold lookup
    rw [if_neg fun hh => h ((meth_funcs hg hq hs hu.1).1 hh)]
    cases hf : Q.impls.reverse.find? fun i => decide (i.target = s ∧ cname (.tmeth s i.trait m) ∈ funcs Q) with
    | none =>
      rw [List.find?_eq_none] at hf
      refine absurd ?_ (hf i (List.mem_reverse.2 hi))
      rw [decide_eq_true_iff]
      exact ⟨his, (tmeth_funcs hg hq hs (ht i hi) hu.2).2 ⟨i, hi, his, rfl, him⟩⟩
    | some j =>
      have hj := List.mem_reverse.1 (List.mem_of_find?_eq_some hf)
      have hp := List.find?_some hf
      rw [decide_eq_true_iff] at hp
      obtain ⟨k, hk, hks, hkt, hkm⟩ := (tmeth_funcs hg hq hs (ht j hj) hu.2).1 hp.2
      have : j.trait = t := by rw [← hkt]; exact hun k hk hks hkm
      rw [Option.map_some, this]
  · unfold lookup
    rw [if_neg fun hh => h ((meth_funcs hg hq hs hu.1).1 hh), find_none, Option.map_none]
    intro i hi
    rw [decide_eq_false_iff_not]
    rintro ⟨his, hf⟩
    have hi' := List.mem_reverse.1 hi
    obtain ⟨k, hk, hks, _, hkm⟩ := (tmeth_funcs hg hq hs (ht i hi') hu.2).1 hf
    exact hno k hk hks hkm

/-- C78 (partial): in such programs a method call runs the method of the struct, or else of the one trait
with the method that it implements, or else of the one mixin, and no other declaration has that
name. The call may stand anywhere, if the methods of the struct precede the calls that
a trait could also serve, and temporaries call only methods declared before.
Missing from the full claim: methods declared after the call (`order_violated`, `temporary_violated`), several
traits with the method (`ambiguous_violated`), methods called like a trait and a method
(`qualified_violated`), methods of a mixin's traits and mixins (`mixin_trait_violated`,
`mixin_nested_violated`). -/
theorem resolve_partial {P Q : Prog} (hg : Good P) (hq : Part Q P) {s m : Text} (hs : s ∈ P.structs)
    (uses : Text → List Text) (huse : ∀ u ∈ uses s, u ∈ P.structs) (hu : Unqualified P m) {d : Decl}
    (hc : Calls P uses s m d) (temp : Bool)
    (h1 : ∀ i ∈ P.impls, ∀ j ∈ P.impls, i.target = s → j.target = s → m ∈ i.methods.map (·.name) →
      m ∈ j.methods.map (·.name) → i.trait = j.trait)
    (h2 : ∀ u ∈ uses s, ∀ v ∈ uses s, (u, m) ∈ P.inherent → (v, m) ∈ P.inherent → u = v)
    (h3 : ∀ i ∈ Q.impls, i.target = s → m ∈ i.methods.map (·.name) → (s, m) ∈ P.inherent → (s, m) ∈ Q.inherent)
    (h4 : temp = true → (s, m) ∈ Q.inherent ∨ ∃ i ∈ Q.impls, i.target = s ∧ m ∈ i.methods.map (·.name)) :
    resolve Q P uses temp s m = (cname d, match d with
      | .meth u _ => if u = s then none else some u
      | _ => none) ∧
    d ∈ decls P ∧ ∀ e ∈ decls P, cname e = cname d → e = d := by
  have hP : Part P P := ⟨fun _ h => h, fun _ h => h, fun _ h => h⟩
  obtain ⟨q1, q2, q3⟩ := lookup_eq hg hq hs hu
  obtain ⟨p1, p2, p3⟩ := lookup_eq hg hP hs hu
  have hdecl : d ∈ decls P := by
    simp only [decls, List.mem_append, List.mem_map, List.mem_flatMap]
    cases hc with
    | own h => exact .inl (.inr ⟨_, h, rfl⟩)
    | trait i _ hi hi' hm =>
      subst hi'
      obtain ⟨x, hx, rfl⟩ := List.mem_map.1 hm
      exact .inl (.inl (.inr ⟨i, hi, .inr ⟨x, hx, rfl⟩⟩))
    | mixin u _ _ _ h => exact .inl (.inr ⟨_, h, rfl⟩)
  refine ⟨?_, hdecl, fun e he => decls_inj hg he hdecl⟩
  unfold resolve
  cases hc with
  | own h =>
    simp only [if_true]
    by_cases hQ : (s, m) ∈ Q.inherent
    · rw [q1 hQ]
    · have hno : ∀ i ∈ Q.impls, i.target = s → m ∉ i.methods.map (·.name) := fun i hi his him =>
        hQ (h3 i hi his him h)
      rw [q3 hQ hno]
      simp only
      split
      · rfl
      · rw [p1 h]
  | trait i hno hi his him =>
    have hQ : (s, m) ∉ Q.inherent := fun h => hno (hq.inherent _ h)
    by_cases hex : ∃ j ∈ Q.impls, j.target = s ∧ m ∈ j.methods.map (·.name)
    · rw [q2 hQ i.trait hex fun j hj hjs hjm => h1 j (hq.impls j hj) i hi hjs his hjm him]
    · have hno' : ∀ j ∈ Q.impls, j.target = s → m ∉ j.methods.map (·.name) := fun j hj hjs hjm =>
        hex ⟨j, hj, hjs, hjm⟩
      rw [q3 hQ hno']
      simp only
      rw [if_neg, p2 hno i.trait ⟨i, hi, his, him⟩ fun j hj hjs hjm => h1 j hj i hi hjs his hjm him]
      intro ht
      rcases h4 ht with h | h
      · exact hQ h
      · exact hex h
  | mixin u hno hno' hu' hum =>
    have hQ : (s, m) ∉ Q.inherent := fun h => hno (hq.inherent _ h)
    have hnoQ : ∀ i ∈ Q.impls, i.target = s → m ∉ i.methods.map (·.name) := fun i hi =>
      hno' i (hq.impls i hi)
    rw [q3 hQ hnoQ, p3 hno hno']
    simp only
    rw [if_neg]
    · rw [find_unique (x := u) hu' (by
          rw [decide_eq_true_iff]
          exact (meth_funcs hg hP (huse u hu') hu.1).2 hum) fun v hv hp => by
          rw [decide_eq_true_iff] at hp
          exact h2 v hv u hu' ((meth_funcs hg hP (huse v hv) hu.1).1 hp) hum]
      simp only
      rw [if_neg]
      rintro rfl
      exact hno hum
    · intro ht
      rcases h4 ht with h | ⟨i, hi, his, him⟩
      · exact hQ h
      · exact hnoQ i hi his him

/-- The case: a call of `draw`, of `scale` and of a method of a mixin, before the second implementation. -/
def shapesBefore : Prog := { shapes with impls := shapes.impls.take 1 }

example : resolve shapesBefore shapes (fun _ => []) true "Circle".toList "scale".toList =
    ("Circle__Shape_scale".toList, none) := by decide +kernel

example : resolve shapesBefore shapes (fun _ => ["Circle".toList]) false "Canvas".toList "draw".toList =
    ("Circle__draw".toList, some "Circle".toList) := by
  have h := (resolve_partial (P := shapes) (Q := shapesBefore) (s := "Canvas".toList) (m := "draw".toList)
    shapes_good ⟨fun i hi => List.mem_of_mem_take hi, fun _ h => h, fun _ h => h⟩ (by decide)
    (fun _ => ["Circle".toList]) (by decide) ⟨by decide, by decide⟩
    (.mixin "Circle".toList (by decide) (by decide) (by decide) (by decide)) false
    (by decide) (by decide) (by decide) (by decide)).1
  rw [h]
  decide

/-- C78, violated: a call after the implementation of a trait and before the methods of the struct
runs the trait's method, the same call later the struct's. -/
theorem order_violated (s t : Text) (m : Sig) (uses : Text → List Text) (temp : Bool) (P : Prog)
    (hs : m.name ≠ t ++ '_' :: m.name) (hP : (s, m.name) ∈ P.inherent) :
    let Q : Prog := ⟨P.structs, P.traits, [⟨t, s, [m]⟩], [], []⟩
    resolve Q P uses temp s m.name = (cname (.tmeth s t m.name), none) ∧ Calls P uses s m.name (.meth s m.name) ∧
      lookup P s m.name = some (cname (.meth s m.name)) := by
  intro Q
  refine ⟨?_, .own hP, ?_⟩
  · have h1 : cname (.meth s m.name) ∉ funcs Q := by
      simp only [funcs, Q, cname, List.flatMap_cons, List.map_cons, List.map_nil, List.flatMap_nil,
        List.append_nil, List.mem_singleton, List.append_assoc, List.cons_append, List.append_cancel_left_eq,
        List.cons.injEq, true_and]
      exact hs
    unfold resolve lookup
    rw [if_neg h1]
    simp [Q, funcs]
  · unfold lookup
    rw [if_pos]
    simp only [funcs, List.mem_append, List.mem_map]
    exact .inl (.inr ⟨_, hP, rfl⟩)

/-- C78, violated: a method of a trait that is implemented after the call is not found for a temporary
receiver: the name called belongs to nothing. -/
theorem temporary_violated {P Q : Prog} (hg : Good P) (hq : Part Q P) {s m : Text} (hs : s ∈ P.structs)
    (uses : Text → List Text) (hu : Unqualified P m) (h1 : (s, m) ∉ P.inherent)
    (h2 : ∀ i ∈ Q.impls, i.target = s → m ∉ i.methods.map (·.name)) :
    (resolve Q P uses true s m).1 = cname (.meth s m) ∧ ∀ d ∈ decls P, cname d ≠ cname (.meth s m) := by
  have q := (lookup_eq hg hq hs hu).2.2 (fun h => h1 (hq.inherent _ h)) h2
  refine ⟨by unfold resolve; rw [q]; rfl, ?_⟩
  intro d hd he
  rcases decls_made hg hd with ⟨d1, d2, d3⟩ | ⟨f, hf, rfl⟩
  · have := made_inj hg d1 (e := .meth s m) (.meth hs) (by
      cases d with
      | tmeth s' t' m' =>
        obtain ⟨x, hx, rfl, hm⟩ := d2 s' t' m' rfl
        obtain ⟨y, hy, rfl⟩ := List.mem_map.1 hm
        exact hu.1 x hx y hy
      | _ => trivial) he
    subst this
    exact h1 (d3 s m rfl)
  · exact plain_ne hg (d := .meth s m) (.meth hs) hf he.symm

/-- C78, violated: of two traits with the method, the one implemented last is taken without a word. -/
theorem ambiguous_violated (s t u : Text) (m : Sig) (uses : Text → List Text) (temp : Bool)
    (h1 : m.name ≠ t ++ '_' :: m.name) (h2 : m.name ≠ u ++ '_' :: m.name) :
    let P : Prog := ⟨[s], [⟨t, [m]⟩, ⟨u, [m]⟩], [⟨t, s, [m]⟩, ⟨u, s, [m]⟩], [], []⟩
    resolve P P uses temp s m.name = (cname (.tmeth s u m.name), none) ∧
      Calls P uses s m.name (.tmeth s t m.name) ∧ Calls P uses s m.name (.tmeth s u m.name) := by
  intro P
  refine ⟨?_, .trait ⟨t, s, [m]⟩ (by simp [P]) (by simp [P]) rfl (by simp),
    .trait ⟨u, s, [m]⟩ (by simp [P]) (by simp [P]) rfl (by simp)⟩
  have hn : cname (.meth s m.name) ∉ funcs P := by
    intro h
    simp only [funcs, P, cname, List.flatMap_cons, List.map_cons, List.map_nil, List.flatMap_nil,
      List.append_nil, List.append_assoc, List.cons_append, List.mem_cons,
      List.nil_append, List.append_cancel_left_eq, List.cons.injEq, true_and] at h
    rcases h with h | h | h
    · exact h1 h
    · exact h2 h
    · cases h
  unfold resolve lookup
  rw [if_neg hn]
  simp [P, funcs]

/-- C78, violated: a method `T_m` of a trait is taken for method `m` of trait `T`. -/
theorem qualified_violated (s t u m : Text) (sg sg' : Sig) (uses : Text → List Text) (temp : Bool)
    (h1 : sg.name = m) (h2 : sg'.name = t ++ '_' :: m) :
    let P : Prog := ⟨[s], [⟨t, [sg]⟩, ⟨u, [sg']⟩], [⟨t, s, [sg]⟩, ⟨u, s, [sg']⟩], [], []⟩
    Calls P uses s sg'.name (.tmeth s u sg'.name) ∧
      resolve P P uses temp s sg'.name = (cname (.tmeth s t m), none) := by
  intro P
  refine ⟨.trait ⟨u, s, [sg']⟩ (by simp [P]) (by simp [P]) rfl (by simp), ?_⟩
  have e : cname (.meth s sg'.name) = cname (.tmeth s t m) := by
    simp only [cname, h2, List.append_assoc, List.cons_append]
  have hin : cname (.meth s sg'.name) ∈ funcs P := by
    rw [e]
    simp [funcs, P, h1]
  unfold resolve lookup
  rw [if_pos hin, e]

/-- C78, violated: a method of a trait that the mixin implements is not found. -/
theorem mixin_trait_violated {P : Prog} (hg : Good P) {s u m : Text} (hs : s ∈ P.structs) (hu : u ∈ P.structs)
    (hq : Unqualified P m) (h1 : (s, m) ∉ P.inherent) (h2 : ∀ i ∈ P.impls, i.target = s → m ∉ i.methods.map (·.name))
    (h3 : (u, m) ∉ P.inherent) (temp : Bool) :
    resolve P P (fun _ => [u]) temp s m = (cname (.meth s m), none) := by
  have hP : Part P P := ⟨fun _ h => h, fun _ h => h, fun _ h => h⟩
  have q := (lookup_eq hg hP hs hq).2.2 h1 h2
  unfold resolve
  rw [q]
  simp only
  split
  · rfl
  · rw [find_none]
    intro v hv
    have : v = u := by simpa using hv
    subst this
    rw [decide_eq_false_iff_not]
    exact fun h => h3 ((meth_funcs hg hP hu hq.1).1 h)

/-- The case: `scale`, a method of a trait of `Circle`, on a struct that uses `Circle`. -/
example : resolve { shapes with impls := shapes.impls.take 1 } { shapes with impls := shapes.impls.take 1 }
    (fun _ => ["Circle".toList]) false "Canvas".toList "scale".toList = ("Canvas__scale".toList, none) := by
  decide +kernel

/-- C78, violated: a method of a mixin of a mixin is not found. -/
theorem mixin_nested_violated (a b c m : Text) (h1 : Clean a ∧ Clean b ∧ Clean c) (h2 : a ≠ b ∧ a ≠ c ∧ b ≠ c) :
    let P : Prog := ⟨[a, b, c], [], [], [(a, m)], []⟩
    let uses : Text → List Text := fun x => if x = c then [b] else if x = b then [a] else []
    resolve P P uses false c m = (cname (.meth c m), none) := by
  intro P uses
  have key : ∀ x, Clean x → x ≠ a → cname (.meth x m) ∉ funcs P := by
    intro x hx hne h
    simp only [funcs, P, cname, List.flatMap_nil, List.map_cons, List.map_nil, List.nil_append,
      List.append_nil, List.mem_singleton] at h
    exact hne (clean_split hx.2 h1.1.2 h).1
  have hc := key c h1.2.2 (fun h => h2.2.1 h.symm)
  have hb := key b h1.2.1 (fun h => h2.1 h.symm)
  have hl : lookup P c m = none := by
    unfold lookup
    rw [if_neg hc]
    rfl
  unfold resolve
  rw [hl]
  simp only [Bool.false_eq_true, if_false]
  have : uses c = [b] := if_pos rfl
  rw [this, find_none]
  intro v hv
  have : v = b := by simpa using hv
  subst this
  rw [decide_eq_false_iff_not]
  exact hb

/-! ### Mixins -/

theorem lookup_snoc {β : Type} {k x : Text} {v : β} : ∀ {l : List (Text × β)},
    (l ++ [(k, v)]).lookup x = match l.lookup x with
      | some w => some w
      | none => if x = k then some v else none
  | [] => by
    by_cases h : x = k
    · simp [List.lookup, h]
    · have : (x == k) = false := by rw [beq_eq_false_iff_ne]; exact h
      simp [List.lookup, h, this]
  | (a, w) :: l => by
    simp only [List.cons_append, List.lookup]
    split
    · rfl
    · exact lookup_snoc

theorem flatten_expands {defs : List (Text × List Member)} {known : List (Text × List Text)}
    (hk : ∀ u fs, known.lookup u = some fs → ∃ ms, (u, ms) ∈ defs ∧ Expands defs ms fs) :
    ∀ ms : List Member, (∀ u, .use u ∈ ms → (known.lookup u).isSome) → Expands defs ms (flatten known ms)
  | [], _ => .nil
  | .field n :: ms, h => .field (flatten_expands hk ms fun u hu => h u (by simp [hu]))
  | .use u :: ms, h => by
    have hu := h u (by simp)
    obtain ⟨fs, hfs⟩ := Option.isSome_iff_exists.1 hu
    obtain ⟨us, h1, h2⟩ := hk u fs hfs
    have := Expands.use h1 h2 (flatten_expands hk ms fun v hv => h v (by simp [hv]))
    simpa [flatten, hfs] using this

theorem layouts_spec {all : List (Text × List Member)} : ∀ (ds : List (Text × List Member))
    (known : List (Text × List Text)), (∀ d ∈ ds, d ∈ all) →
    (∀ u fs, known.lookup u = some fs → ∃ ms, (u, ms) ∈ all ∧ Expands all ms fs) →
    UseBefore (known.map (·.1)) ds → (known.map (·.1) ++ ds.map (·.1)).Nodup →
    (∀ u fs, known.lookup u = some fs → (layouts known ds).lookup u = some fs) ∧
    ∀ d ∈ ds, ∃ fs, (layouts known ds).lookup d.1 = some fs ∧ Expands all d.2 fs
  | [], known, _, _, _, _ => ⟨fun _ _ h => h, fun d hd => by cases hd⟩
  | d :: ds, known, hin, hk, ⟨hu, hb⟩, hn => by
    have hsome : ∀ u, u ∈ known.map (·.1) → (known.lookup u).isSome := by
      intro u hu
      obtain ⟨⟨k, v⟩, hm, rfl⟩ := List.mem_map.1 hu
      cases h : known.lookup k with
      | some _ => rfl
      | none =>
        rw [List.lookup_eq_none_iff] at h
        have := h _ hm
        simp at this
    have hd1 : known.lookup d.1 = none := by
      rw [List.lookup_eq_none_iff]
      rintro ⟨k, v⟩ hm
      have : d.1 ≠ k := by
        rintro rfl
        rw [List.nodup_append] at hn
        exact hn.2.2 _ (List.mem_map.2 ⟨_, hm, rfl⟩) _ (by simp) rfl
      simpa using this
    have hexp := flatten_expands hk d.2 fun u h => hsome u (hu u h)
    obtain ⟨i1, i2⟩ := layouts_spec ds (known ++ [(d.1, flatten known d.2)]) (fun x hx => hin x (by simp [hx]))
      (by
        intro u fs h
        rw [lookup_snoc] at h
        split at h
        · rename_i w hw
          cases h
          exact hk u _ hw
        · split at h
          · rename_i e
            cases h
            exact ⟨d.2, e ▸ hin d (by simp), hexp⟩
          · cases h)
      (by simpa using hb) (by simpa using hn)
    have hd2 : (known ++ [(d.1, flatten known d.2)]).lookup d.1 = some (flatten known d.2) := by
      rw [lookup_snoc, hd1]
      simp
    refine ⟨fun u fs h => i1 u fs (by rw [lookup_snoc, h]), ?_⟩
    intro x hx
    rcases List.mem_cons.1 hx with rfl | hx
    · exact ⟨_, i1 _ _ hd2, hexp⟩
    · exact i2 x hx

/-- C78, the fields: if mixins are declared first, a struct has its fields and those of its
mixins, to any depth, where `use` stands. -/
theorem fields_partial (defs : List (Text × List Member)) (hn : (defs.map (·.1)).Nodup)
    (hu : UseBefore [] defs) : ∀ d ∈ defs, ∃ fs, (layouts [] defs).lookup d.1 = some fs ∧ Expands defs d.2 fs :=
  (layouts_spec defs [] (fun _ h => h) (fun _ _ h => by cases h) hu (by simpa using hn)).2

example : layouts [] [("A".toList, [.field "x".toList]), ("B".toList, [.use "A".toList, .field "y".toList]),
    ("C".toList, [.field "z".toList, .use "B".toList])] = [("A".toList, ["x".toList]),
    ("B".toList, ["x".toList, "y".toList]), ("C".toList, ["z".toList, "x".toList, "y".toList])] ∧
    UseBefore [] [("A".toList, [.field "x".toList]), ("B".toList, [.use "A".toList, .field "y".toList]),
    ("C".toList, [.field "z".toList, .use "B".toList])] := by
  refine ⟨by decide +kernel, ?_, ?_, ?_, trivial⟩ <;> simp

theorem valueOf_at : ∀ (names : List Text) (vs : List Int) (i : Nat) (f : Text), names.Nodup →
    names.length = vs.length → names[i]? = some f → valueOf names vs f = vs[i]?
  | [], _, _, _, _, _, h => by simp at h
  | _ :: _, [], _, _, _, hl, _ => by simp at hl
  | n :: ns, v :: vs, 0, f, _, _, h => by
    simp only [List.getElem?_cons_zero, Option.some.injEq] at h
    subst h
    simp [valueOf]
  | n :: ns, v :: vs, i + 1, f, hn, hl, h => by
    simp only [List.getElem?_cons_succ] at h ⊢
    simp only [List.nodup_cons] at hn
    have : (f == n) = false := by
      rw [beq_eq_false_iff_ne]
      rintro rfl
      exact hn.1 (List.mem_of_getElem? h)
    rw [← valueOf_at ns vs i f hn.2 (by simpa using hl) h]
    simp [valueOf, List.lookup, this]

/-- C78 (partial): a method of a mixin sees its own fields, if `use` is the first member.
Missing: all other places (`second_mixin_violated`). -/
theorem mixin_partial {known : List (Text × List Text)} {u : Text} {fs : List Text} {ms : List Member}
    (hu : known.lookup u = some fs) (hn : (flatten known (.use u :: ms)).Nodup) (vs : List Int)
    (hl : vs.length = (flatten known (.use u :: ms)).length) {i : Nat} {f : Text} (hf : fs[i]? = some f) :
    readMixin vs i = valueOf (flatten known (.use u :: ms)) vs f := by
  rw [valueOf_at _ vs i f hn hl.symm]
  · rfl
  · have : flatten known (.use u :: ms) = fs ++ flatten known ms := by simp [flatten, hu]
    rw [this, List.getElem?_append_left (by
      obtain ⟨h, _⟩ := List.getElem?_eq_some_iff.1 hf
      exact h), hf]

/-- C78, violated: with any field before it, a mixin's methods take another field for their first. -/
theorem second_mixin_violated {known : List (Text × List Text)} {u f : Text} {fs : List Text}
    {pre ms : List Member} (hu : known.lookup u = some (f :: fs))
    (hn : (flatten known (pre ++ .use u :: ms)).Nodup) (hp : flatten known pre ≠ []) :
    ∃ vs : List Int, vs.length = (flatten known (pre ++ .use u :: ms)).length ∧
      readMixin vs 0 ≠ valueOf (flatten known (pre ++ .use u :: ms)) vs f := by
  have e : flatten known (pre ++ .use u :: ms) = flatten known pre ++ (f :: fs ++ flatten known ms) := by
    simp [flatten, hu]
  rw [e] at hn ⊢
  cases hpre : flatten known pre with
  | nil => exact absurd hpre hp
  | cons g gs =>
    rw [hpre] at hn
    refine ⟨0 :: List.replicate (gs ++ (f :: fs ++ flatten known ms)).length 1, by simp, ?_⟩
    have hi : ((g :: gs) ++ (f :: fs ++ flatten known ms))[(g :: gs).length]? = some f := by
      rw [List.getElem?_append_right (Nat.le_refl _)]
      simp
    rw [valueOf_at _ _ _ f hn (by simp) hi]
    simp [readMixin]

/-- C78, violated: `use` of a struct declared later adds nothing, without a word. -/
theorem later_use_violated {known : List (Text × List Text)} {u : Text} {ms : List Member}
    (hu : known.lookup u = none) : flatten known (.use u :: ms) = flatten known ms := by
  simp [flatten, hu]

/-- C78, violated: the ninth mixin is written past the end of the compiler's table. -/
theorem mixins_violated {known : List (Text × List Text)} (us : List Text)
    (hu : ∀ u ∈ us, (known.lookup u).isSome) (h : 8 < us.length) :
    usesOf known (us.map .use) = .ub := by
  unfold usesOf
  simp only
  rw [List.filterMap_map, if_neg]
  rw [show us.filterMap _ = us from ?_]
  · omega
  · clear h
    induction us with
    | nil => rfl
    | cons u us ih =>
      have h1 := hu u (by simp)
      simp only [List.filterMap_cons, Function.comp_apply, h1, if_true]
      rw [ih fun v hv => hu v (by simp [hv])]

end Verif.Traits
