import Verif.Reflect.Model

/-!
# Reflection: theorems
-/

namespace Verif.Reflect
open Verif
open Verif.Mixin (Fld SDef)
open Spec

theorem up_mul (n a : Nat) : 8 * (Mixin.up n (8 * a) / 8) = Mixin.up n (8 * a) := by
  unfold Mixin.up
  have : (n + (8 * a - 1)) / (8 * a) * (8 * a) = 8 * ((n + (8 * a - 1)) / (8 * a) * a) := by
    rw [Nat.mul_left_comm]
  rw [this]
  omega

theorem layout_bytes (p : Bool) : ∀ (fs : List Fld) (off : Nat), ∀ x ∈ Mixin.layout p off fs,
    x.1.width = 0 → 8 * (x.2 / 8) = x.2
  | [], _, x, hx, _ => by simp [Mixin.layout] at hx
  | f :: r, off, x, hx, hw => by
    simp only [Mixin.layout, List.mem_cons] at hx
    rcases hx with rfl | hx
    · simp only at hw ⊢
      unfold Mixin.place
      rw [if_pos hw]
      exact up_mul _ _
    · exact layout_bytes p r _ x hx hw

theorem find_unique {α : Type} (l : List α) (k : α → String) (a : α) (hn : (l.map k).Nodup) (ha : a ∈ l) :
    l.find? (fun x => k x == k a) = some a := by
  induction l with
  | nil => simp at ha
  | cons b l ih =>
    simp only [List.map_cons, List.nodup_cons] at hn
    by_cases h : k b = k a
    · rcases List.mem_cons.1 ha with rfl | ha'
      · simp
      · exact absurd (h ▸ List.mem_map_of_mem (f := k) ha') hn.1
    · rcases List.mem_cons.1 ha with rfl | ha'
      · exact absurd rfl h
      · rw [List.find?_cons_of_neg (by simpa using h)]
        exact ih hn.2 ha'

/-- the place of a field in a plain struct -/
theorem plain_slot (d : Def) (hp : Plain d) (f : Field) (hf : f ∈ d.fields) :
    ∃ x, (Mixin.places d.sdef).find? (fun p => p.1.name == f.c.name) = some x ∧ x.1 = f.c ∧
      8 * (x.2 / 8) = x.2 := by
  obtain ⟨hu, hw, hn⟩ := hp
  have hfst := Mixin.places_fst d.sdef
  have hmem : f.c ∈ (Mixin.places d.sdef).map Prod.fst := by
    rw [hfst]
    exact List.mem_map_of_mem (f := fun (g : Field) => g.c) hf
  obtain ⟨x, hx, hxf⟩ := List.mem_map.1 hmem
  refine ⟨x, ?_, hxf, ?_⟩
  · rw [← hxf]
    refine find_unique _ (fun p : Fld × Nat => p.1.name) x ?_ hx
    have : (Mixin.places d.sdef).map (fun p : Fld × Nat => p.1.name) = d.fields.map (·.c.name) := by
      rw [show (fun p : Fld × Nat => p.1.name) = (fun g : Fld => g.name) ∘ Prod.fst from rfl,
        ← List.map_map, hfst]
      simp [Def.sdef]
    rw [this]; exact hn
  · have hx' : x ∈ Mixin.layout d.packed 0 (d.fields.map (·.c)) := by
      have : Mixin.places d.sdef = Mixin.layout d.packed 0 (d.fields.map (·.c)) := by
        simp [Mixin.places, Def.sdef, hu]
      rwa [this] at hx
    exact layout_bytes _ _ _ x hx' (by rw [hxf]; exact hw f hf)

theorem plain_offset (d : Def) (hp : Plain d) (f : Field) (hf : f ∈ d.fields) :
    ∃ o, offsetOf d f.c.name = some o ∧ At d f o := by
  obtain ⟨x, hx, hxf, h8⟩ := plain_slot d hp f hf
  have hw : x.1.width = 0 := by rw [hxf]; exact hp.2.1 f hf
  have hs : Mixin.slot d.sdef f.c.name = some (8 * (x.2 / 8), 8 * f.c.size) := by
    unfold Mixin.slot
    rw [hx]
    simp only [Option.map_some, Mixin.len, h8, hxf, if_pos (hp.2.1 f hf)]
  refine ⟨x.2 / 8, ?_, ?_, ?_⟩
  · unfold offsetOf
    rw [if_neg (by simp [hp.1]), hx]
    simp only [if_pos hw]
  · intro m
    simp only [Mixin.run, hs]
  · intro m v w
    simp only [Mixin.run, hs]

theorem rows_plain (d : Def) (hp : Plain d) : ∀ fs : List Field, (∀ f ∈ fs, f ∈ d.fields) →
    rows d fs = some (fs.map fun f => (some f.c.name, some (cText f.ty), (offsetOf d f.c.name).getD 0))
  | [], _ => rfl
  | f :: r, h => by
    obtain ⟨o, ho, _⟩ := plain_offset d hp f (h f (by simp))
    rw [rows, ho, rows_plain d hp r (fun g hg => h g (by simp [hg]))]
    simp [ho]

theorem walk_rows (fs : List Field) (g : Field → Option Text × Nat) (t : List Row) :
    walk (fs.map (fun f => (some f.c.name, g f)) ++ (none, none, 0) :: t) =
      fs.map (fun f => (some f.c.name, g f)) := by
  induction fs with
  | nil => rfl
  | cons f r ih => simp only [List.map_cons, List.cons_append, walk, ih]

theorem find_decl (env : List Def) (d : Def) (hd : d ∈ env) (hn : (env.map (·.name)).Nodup) :
    find env d.name = some d := by
  unfold find
  induction env with
  | nil => simp at hd
  | cons e env ih =>
    simp only [List.map_cons, List.nodup_cons] at hn
    rcases List.mem_cons.1 hd with rfl | hd
    · simp
    · have : e.name ≠ d.name := fun h => hn.1 (h ▸ List.mem_map_of_mem (f := fun (x : Def) => x.name) hd)
      rw [List.find?_cons_of_neg (by simpa using this)]
      exact ih hd hn.2

/-- C193: for a struct of ordinary fields with different names a program that reads the table up to the
row without a name sees every field once and in order, with its name, the text `@type_name` gives for
its type and an offset at which the field is found.  Missing: unions, bit fields, type parameters. -/
theorem fields_partial (env : List Def) (d : Def) (hm : d ∈ env) (hn : (env.map (·.name)).Nodup)
    (hp : Plain d) :
    ∃ (t : List Row) (off : Field → Nat), fields env (.struct d.name) = .table t ∧
      walk t = d.fields.map (fun f => (some f.c.name, some (typeName f.ty), off f)) ∧
      ∀ f ∈ d.fields, At d f (off f) := by
  have hd := find_decl env d hm hn
  refine ⟨d.fields.map (fun f => (some f.c.name, some (cText f.ty), (offsetOf d f.c.name).getD 0)) ++
      [(none, none, 0)], fun f => (offsetOf d f.c.name).getD 0, ?_, ?_, ?_⟩
  · simp only [fields, hd, rows_plain d hp d.fields (fun _ h => h)]
  · exact walk_rows d.fields (fun f => (some (cText f.ty), (offsetOf d f.c.name).getD 0)) []
  · intro f hf
    obtain ⟨o, ho, h⟩ := plain_offset d hp f hf
    simpa [ho] using h

/-- `struct P { a: u8; b: i64; }` -/
def pair : Def :=
  ⟨"P".toList, [⟨⟨"a", 1, 1, 0⟩, .prim .u8⟩, ⟨⟨"b", 8, 8, 0⟩, .prim .i64⟩], false, false⟩

example : Plain pair := by unfold Plain; decide +kernel

example : fields [pair] (.struct "P".toList) =
    .table [(some "a", some "uint8_t".toList, 0), (some "b", some "int64_t".toList, 8), (none, none, 0)] := by
  decide +kernel

theorem rows_none (d : Def) (f : Field) (h : offsetOf d f.c.name = none) :
    ∀ fs : List Field, f ∈ fs → rows d fs = none
  | [], hf => by simp at hf
  | g :: r, hf => by
    rcases List.mem_cons.1 hf with rfl | hf
    · rw [rows, h]
    · rw [rows, rows_none d f h r hf]
      cases offsetOf d g.c.name <;> rfl

/-- C193 fails: for every union that has a field the C program is refused. -/
theorem union_violated (env : List Def) (n : Text) (d : Def) (hd : find env n = some d)
    (hu : d.union = true) (hne : d.fields ≠ []) : fields env (.struct n) = .refused := by
  obtain ⟨f, r, hf⟩ := List.exists_cons_of_ne_nil hne
  have : rows d d.fields = none :=
    rows_none d f (by simp [offsetOf, hu]) _ (by rw [hf]; simp)
  simp only [fields, hd, this]

example : fields [{ pair with union := true }] (.struct "P".toList) = .refused :=
  union_violated _ _ { pair with union := true } (by decide +kernel) rfl (by decide +kernel)

/-- C193 fails: for every struct with a bit field the C program is refused, so the other fields are not
told either. -/
theorem bits_violated (env : List Def) (n : Text) (d : Def) (hd : find env n = some d)
    (hn : (d.fields.map (·.c.name)).Nodup) (f : Field) (hf : f ∈ d.fields) (hw : f.c.width ≠ 0) :
    fields env (.struct n) = .refused := by
  have ho : offsetOf d f.c.name = none := by
    unfold offsetOf
    split
    · rfl
    · have hfst := Mixin.places_fst d.sdef
      have hmem : f.c ∈ (Mixin.places d.sdef).map Prod.fst := by
        rw [hfst]
        exact List.mem_map_of_mem (f := fun (g : Field) => g.c) hf
      obtain ⟨x, hx, hxf⟩ := List.mem_map.1 hmem
      have hnd : ((Mixin.places d.sdef).map (fun p : Fld × Nat => p.1.name)).Nodup := by
        rw [show (fun p : Fld × Nat => p.1.name) = (fun g : Fld => g.name) ∘ Prod.fst from rfl,
          ← List.map_map, hfst]
        simpa [Def.sdef, Function.comp_def] using hn
      have := find_unique _ (fun p : Fld × Nat => p.1.name) x hnd hx
      rw [hxf] at this
      rw [this]
      simp only [hxf, if_neg hw]
  simp only [fields, hd, rows_none d f ho _ hf]

/-- `struct F { x: i32; flag: u8 : 1; }` -/
example : fields [⟨"F".toList, [⟨⟨"x", 4, 4, 0⟩, .prim .i32⟩, ⟨⟨"flag", 1, 1, 1⟩, .prim .u8⟩], false, false⟩]
    (.struct "F".toList) = .refused :=
  bits_violated _ _ ⟨"F".toList, [⟨⟨"x", 4, 4, 0⟩, .prim .i32⟩, ⟨⟨"flag", 1, 1, 1⟩, .prim .u8⟩], false, false⟩
    (by decide +kernel) (by decide +kernel) ⟨⟨"flag", 1, 1, 1⟩, .prim .u8⟩ (by decide +kernel) (by decide)

/-- C193: a type that is not a struct, or a struct that is declared nowhere, has no table. -/
theorem null_iff (env : List Def) (t : Ty) :
    fields env t = .null ↔ ∀ n, t = .struct n → find env n = none := by
  constructor
  · rintro h n rfl
    simp only [fields] at h
    cases hf : find env n with
    | none => rfl
    | some d =>
      simp only [hf] at h
      cases hr : rows d d.fields <;> simp [hr] at h
  · intro h
    cases t with
    | struct n => simp only [fields, h n rfl]
    | _ => rfl

/-- C193 fails in generic functions: whatever the instance is for, `@type_name(T)` is the name of the
parameter and `@fields(T)` is a null pointer, also where the type is a struct with a table. -/
theorem generic_violated (env : List Def) (p : Text) (c : Ty) :
    typeName (copied p c (.param p)) = p ∧ fields env (copied p c (.param p)) = .null ∧
      (typeName c ≠ p → typeName (copied p c (.param p)) ≠ typeName (subst p c (.param p))) ∧
      (fields env c ≠ .null → fields env (copied p c (.param p)) ≠ fields env (subst p c (.param p))) := by
  refine ⟨rfl, rfl, ?_, ?_⟩
  · intro h
    simp only [subst, if_true]
    exact fun h' => h h'.symm
  · intro h
    simp only [subst, if_true]
    exact fun h' => h h'.symm

/-- `fn show<T>(...) { @fields(T) }` for `P` -/
example : fields [pair] (copied ['T'] (.struct ['P']) (.param ['T'])) ≠
    fields [pair] (subst ['T'] (.struct ['P']) (.param ['T'])) :=
  (generic_violated [pair] ['T'] (.struct ['P'])).2.2.2 (by decide +kernel)

/-- Outside of generic functions nothing has to be replaced. -/
theorem copied_plain (p : Text) (c t : Ty) (h : Named t) : copied p c t = subst p c t := by
  induction t with
  | prim q => rfl
  | struct n => rfl
  | param n => exact h.elim
  | ptr t ih => simp only [subst, ← ih h]; rfl

theorem star_prim (p : Prim) : '*' ∉ primText p := by cases p <;> decide

theorem prim_text (p q : Prim) (h : primText p = primText q) : canon (.prim p) = canon (.prim q) := by
  cases p <;> cases q <;> first | rfl | exact absurd h (by decide)

/-- C193: two types have the same name exactly if C does not tell them apart, for all types of scalars,
structs and pointers.  Missing: type parameters. -/
theorem name_iff (t u : Ty) (ht : Named t) (hu : Named u) :
    typeName t = typeName u ↔ canon t = canon u := by
  unfold typeName
  have nostar : ∀ {n : Text} {t : Ty}, '*' ∉ n → n ≠ cText t ++ ['*'] := by
    rintro n t hn rfl; exact hn (by simp)
  constructor
  · intro h
    induction t generalizing u with
    | prim p =>
      cases u with
      | prim q => exact prim_text p q h
      | struct n => exact absurd h (hu.2 p)
      | param n => exact hu.elim
      | ptr u => exact absurd h (nostar (star_prim p))
    | struct n =>
      cases u with
      | prim q => exact absurd h.symm (ht.2 q)
      | struct k => exact congrArg Ty.struct h
      | param k => exact hu.elim
      | ptr u => exact absurd h (nostar ht.1)
    | param n => exact ht.elim
    | ptr t ih =>
      cases u with
      | prim q => exact absurd h.symm (nostar (star_prim q))
      | struct k => exact absurd h.symm (nostar hu.1)
      | param k => exact hu.elim
      | ptr u =>
        simp only [cText, List.append_cancel_right_eq] at h
        simp only [canon, ih u ht hu h]
  · intro h
    have key : ∀ t, cText (canon t) = cText t := by
      intro t
      induction t with
      | prim p => cases p <;> rfl
      | struct n => rfl
      | param n => rfl
      | ptr t ih => simp only [canon, cText, ih]
    rw [← key t, ← key u, h]

/-- `*P` and `P`, `*rune` and `*int` -/
example : typeName (.ptr (.struct ['P'])) ≠ typeName (.struct ['P']) ∧
    typeName (.ptr (.prim .rune)) = typeName (.ptr (.prim .int)) := by
  have hP : Named (.struct ['P']) := ⟨by decide, fun p => by cases p <;> decide⟩
  exact ⟨fun h => absurd ((name_iff (.ptr (.struct ['P'])) (.struct ['P']) hP hP).1 h) (by decide),
    (name_iff (.ptr (.prim .rune)) (.ptr (.prim .int)) trivial trivial).2 rfl⟩

end Verif.Reflect
