import Verif.Mixin.Lemmas

/-!
# C92, C93: embedded structs
-/

namespace Verif.Mixin
open Verif Spec

/-! ## C93: the fields of a struct with `use` -/

theorem find_cons (x : SDef) (env : List SDef) (n : String) :
    find (x :: env) n = if x.name = n then some x else find env n := by
  unfold find
  rw [List.find?_cons]
  by_cases h : x.name = n
  · simp [h]
  · have : (x.name == n) = false := by simpa using h
    simp [this, h]

/-- What the table says of a declared struct. -/
def Holds (ds : List Decl) (env : List SDef) (d : Decl) : Prop :=
  ∃ sd, find env d.name = some sd ∧ Expands ds d.items sd.fields ∧ sd.union = d.union ∧
    sd.packed = d.packed ∧ sd.used = uses d.items ∧
    ((∃ d' ∈ ds, Item.use d.name ∈ d'.items) → ∀ f ∈ sd.fields, f.width = 0)

theorem width_map (fs : List Fld) (h : ∀ f ∈ fs, f.width = 0) :
    fs.map (fun f => { f with width := 0 }) = fs := by
  induction fs with
  | nil => rfl
  | cons f r ih =>
    rw [List.map_cons, ih (fun g hg => h g (by simp [hg]))]
    have := h f (by simp)
    cases f
    simp_all

theorem items_expand (ds : List Decl) (env : List SDef) (is : List Item)
    (hu : ∀ k, Item.use k ∈ is → ∃ d ∈ ds, d.name = k ∧ Holds ds env d)
    (he : ∀ k, Item.use k ∈ is → ∃ d' ∈ ds, Item.use k ∈ d'.items)
    (hn : ∀ f, Item.named f ∈ is → f.width = 0) :
    Expands ds is (parseItems env is).1 ∧ (parseItems env is).2 = uses is ∧
      ((∀ f, Item.field f ∈ is → f.width = 0) → ∀ f ∈ (parseItems env is).1, f.width = 0) := by
  induction is with
  | nil => exact ⟨.nil, rfl, fun _ f hf => by simp [parseItems] at hf⟩
  | cons i r ih =>
    obtain ⟨h1, h2, h3⟩ := ih (fun k hk => hu k (by simp [hk])) (fun k hk => he k (by simp [hk]))
      (fun f hf => hn f (by simp [hf]))
    cases i with
    | field f =>
      refine ⟨.field _ _ _ h1, ?_, ?_⟩
      · simp only [parseItems, uses, List.filterMap_cons] at h2 ⊢
        exact h2
      · intro h g hg
        simp only [parseItems, List.mem_cons] at hg
        rcases hg with rfl | hg
        · exact h g (by simp)
        · exact h3 (fun f hf => h f (by simp [hf])) g hg
    | named f =>
      have hw : ({ f with width := 0 } : Fld) = f := by
        have := hn f (by simp)
        cases f
        simp_all
      refine ⟨?_, ?_, ?_⟩
      · simp only [parseItems, hw]
        exact .named _ _ _ h1
      · simp only [parseItems, uses, List.filterMap_cons] at h2 ⊢
        exact h2
      · intro h g hg
        simp only [parseItems, List.mem_cons] at hg
        rcases hg with rfl | hg
        · rfl
        · exact h3 (fun f hf => h f (by simp [hf])) g hg
    | use k =>
      obtain ⟨d, hd, rfl, sd, hf, hx, _, _, _, hw⟩ := hu k (by simp)
      have hz := hw (he d.name (by simp))
      simp only [parseItems, hf, width_map _ hz]
      refine ⟨.use d r _ _ hd hx h1, ?_, ?_⟩
      · rw [h2]
        simp only [uses, List.filterMap_cons]
      · intro h g hg
        rcases List.mem_append.mp hg with hg | hg
        · exact hz g hg
        · exact h3 (fun f hf => h f (by simp [hf])) g hg

theorem parse_holds (ds : List Decl) (hb : NoBits ds) (r : List Decl) :
    ∀ (seen : List Decl) (env env' : List SDef), Ordered.go (seen.map (·.name)) r →
      (∀ d ∈ r, d ∈ ds) → (∀ d ∈ seen, d ∈ ds) → (∀ d ∈ seen, Holds ds env d) →
      parse env r = .ok env' → ∀ d, d ∈ seen ∨ d ∈ r → Holds ds env' d := by
  induction r with
  | nil =>
    intro seen env env' _ _ _ hi hp d hd
    simp only [parse, Res.ok.injEq] at hp
    subst hp
    rcases hd with hd | hd
    · exact hi d hd
    · simp at hd
  | cons x r ih =>
    intro seen env env' ho hr hsn hi hp d hd
    obtain ⟨hx, hu, hgo⟩ := ho
    have hxd := hr x (by simp)
    simp only [parse, declare] at hp
    by_cases hc : (parseItems env x.items).2.length ≤ 8
    · rw [if_pos hc] at hp
      simp only at hp
      obtain ⟨e1, e2, e3⟩ := items_expand ds env x.items
        (fun k hk => by
          obtain ⟨y, hy, hyk⟩ := List.mem_map.mp (hu k hk)
          exact ⟨y, hsn y hy, hyk, hi y hy⟩)
        (fun k hk => ⟨x, hxd, hk⟩) (hb x hxd).1
      refine ih (x :: seen) _ env' hgo (fun d hd => hr d (by simp [hd])) ?_ ?_ hp d ?_
      · intro y hy
        rcases List.mem_cons.mp hy with rfl | hy
        · exact hxd
        · exact hsn y hy
      · intro y hy
        rcases List.mem_cons.mp hy with rfl | hy
        · refine ⟨_, by rw [find_cons, if_pos rfl], e1, rfl, rfl, e2, ?_⟩
          rintro ⟨d', hd', hk⟩
          exact e3 ((hb y hxd).2 d' hd' hk)
        · obtain ⟨sd, h1, h2⟩ := hi y hy
          refine ⟨sd, ?_, h2⟩
          rw [find_cons, if_neg, h1]
          intro h
          simp only at h
          exact hx (h ▸ List.mem_map.mpr ⟨y, hy, rfl⟩)
      · rcases hd with hd | hd
        · exact .inl (by simp [hd])
        · rcases List.mem_cons.mp hd with rfl | hd
          · exact .inl (by simp)
          · exact .inr hd
    · rw [if_neg hc] at hp
      simp at hp

/-- **C93**: in a program in which structs are declared before they are embedded, and embedded ones
have no bit fields, every struct gets exactly the fields its text stands for, in order: the fields
of an embedded struct in the place of its `use`, a named one as one field. -/
theorem fields_partial (ds : List Decl) (env : List SDef) (ho : Ordered ds) (hb : NoBits ds)
    (hp : parse [] ds = .ok env) (d : Decl) (hd : d ∈ ds) :
    ∃ sd, find env d.name = some sd ∧ Expands ds d.items sd.fields ∧ sd.union = d.union ∧
      sd.packed = d.packed ∧ sd.used = uses d.items := by
  obtain ⟨sd, h1, h2, h3, h4, h5, _⟩ := parse_holds ds hb ds [] [] env ho (fun _ h => h)
    (fun _ h => by simp at h) (fun _ h => by simp at h) hp d (.inr hd)
  exact ⟨sd, h1, h2, h3, h4, h5⟩

/-- A program that keeps to the eight is never refused, whatever its structs. -/
theorem parse_ok (ds : List Decl) (h : ∀ d ∈ ds, (uses d.items).length ≤ 8) (env : List SDef) :
    ∃ env', parse env ds = .ok env' := by
  have hle : ∀ (env : List SDef) (is : List Item), (parseItems env is).2.length ≤ (uses is).length := by
    intro env is
    induction is with
    | nil => exact Nat.le_refl _
    | cons i r ih =>
      cases i with
      | field f => simpa [parseItems, uses] using ih
      | named f => simpa [parseItems, uses] using ih
      | use s =>
        simp only [parseItems, uses, List.filterMap_cons, List.length_cons] at ih ⊢
        split
        · simp only [List.length_cons]; omega
        · omega
  induction ds generalizing env with
  | nil => exact ⟨env, rfl⟩
  | cons d r ih =>
    have := hle env d.items
    have h8 := h d (by simp)
    simp only [parse, declare, if_pos (show (parseItems env d.items).2.length ≤ 8 by omega)]
    exact ih (fun e he => h e (by simp [he])) _

/-- The example of the README: `Entity`, `Player` that embeds it, `Match` with two players. -/
def readme : List Decl :=
  [⟨"Entity", [.field ⟨"id", 4, 4, 0⟩], false, false⟩,
   ⟨"Player", [.use "Entity", .field ⟨"name", 8, 8, 0⟩], false, false⟩,
   ⟨"Match", [.named ⟨"p1", 16, 8, 0⟩, .named ⟨"p2", 16, 8, 0⟩], false, false⟩]

/-- It meets the hypotheses, and `Player` has the fields `id` and `name`. -/
theorem readme_demo : Ordered readme ∧ NoBits readme ∧ AllSized readme ∧
    ∃ env, parse [] readme = .ok env ∧
      (find env "Player").map (·.fields) = some [⟨"id", 4, 4, 0⟩, ⟨"name", 8, 8, 0⟩] ∧
      (find env "Match").map (fun d => d.fields.map (·.name)) = some ["p1", "p2"] := by
  refine ⟨?_, ?_, ?_, ?_⟩
  · simp [Ordered, Ordered.go, readme]
  · intro d hd
    simp only [readme, List.mem_cons, List.not_mem_nil, or_false] at hd
    rcases hd with rfl | rfl | rfl <;> simp [readme]
  · intro d hd f hf
    simp only [readme, List.mem_cons, List.not_mem_nil, or_false] at hd
    rcases hd with rfl | rfl | rfl <;> simp at hf <;> rcases hf with rfl | rfl <;> decide
  · obtain ⟨env, h⟩ := parse_ok readme (by decide +kernel) []
    refine ⟨env, h, ?_⟩
    have : parse [] readme = .ok
        [⟨"Match", [⟨"p1", 16, 8, 0⟩, ⟨"p2", 16, 8, 0⟩], false, false, []⟩,
         ⟨"Player", [⟨"id", 4, 4, 0⟩, ⟨"name", 8, 8, 0⟩], false, false, ["Entity"]⟩,
         ⟨"Entity", [⟨"id", 4, 4, 0⟩], false, false, []⟩] := by decide +kernel
    rw [this] at h
    cases h
    decide +kernel

/-- A struct embedded above its declaration contributes nothing, and nothing is said. -/
theorem above_violated :
    ∃ ds env, parse [] ds = .ok env ∧ (ds.map (·.name)).Nodup ∧
      (∃ d ∈ ds, ∃ k, Item.use k ∈ d.items ∧ k ∈ ds.map (·.name) ∧
        ∀ fs, Expands ds d.items fs → (find env d.name).map (·.fields) ≠ some fs) := by
  refine ⟨[⟨"P", [.use "E"], false, false⟩, ⟨"E", [.field ⟨"id", 4, 4, 0⟩], false, false⟩],
    [⟨"E", [⟨"id", 4, 4, 0⟩], false, false, []⟩, ⟨"P", [], false, false, []⟩], by decide +kernel,
    by decide +kernel, ⟨"P", [.use "E"], false, false⟩, by decide +kernel, "E", by decide +kernel,
    by decide +kernel, ?_⟩
  intro fs h hf
  have h0 : fs = [] := by
    have : (find [⟨"E", [⟨"id", 4, 4, 0⟩], false, false, []⟩, ⟨"P", [], false, false, []⟩] "P").map
        (·.fields) = some [] := by decide +kernel
    rw [this] at hf
    exact (Option.some.inj hf).symm
  subst h0
  generalize his : [Item.use "E"] = is at h
  generalize hfs : ([] : List Fld) = fs at h
  cases h with
  | nil => simp at his
  | field => simp at his
  | named => simp at his
  | use d r gs fs hd h1 h2 =>
    simp only [List.cons.injEq, Item.use.injEq] at his
    obtain ⟨hn, rfl⟩ := his
    simp only [List.mem_cons, List.not_mem_nil, or_false] at hd
    rcases hd with hd | hd
    · have := congrArg Decl.name hd
      simp only [← hn] at this
      exact absurd this (by decide +kernel)
    · have hi := congrArg Decl.items hd
      simp only at hi
      rw [hi] at h1
      have hg : gs = [] := by
        cases gs with
        | nil => rfl
        | cons => simp at hfs
      subst hg
      cases h1

/-- The widths of bit fields are lost when their struct is embedded. -/
theorem width_violated :
    ∃ ds env, parse [] ds = .ok env ∧ Ordered ds ∧
      (find env "F").map (·.fields.map (·.width)) = some [3, 5] ∧
      (find env "S").map (·.fields.map (·.width)) = some [0, 0] ∧
      ∃ d ∈ ds, d.name = "S" ∧ d.items = [.use "F"] :=
  ⟨[⟨"F", [.field ⟨"a", 1, 1, 3⟩, .field ⟨"b", 1, 1, 5⟩], false, false⟩, ⟨"S", [.use "F"], false, false⟩],
   [⟨"S", [⟨"a", 1, 1, 0⟩, ⟨"b", 1, 1, 0⟩], false, false, ["F"]⟩,
    ⟨"F", [⟨"a", 1, 1, 3⟩, ⟨"b", 1, 1, 5⟩], false, false, []⟩],
   by decide +kernel, by simp [Ordered, Ordered.go], by decide +kernel, by decide +kernel,
   _, List.mem_cons_of_mem _ (List.mem_singleton.mpr rfl), rfl, rfl⟩

/-- Nine embedded structs write past the end of the table of eight. -/
theorem nine_violated :
    ∃ ds, Ordered ds ∧ NoBits ds ∧ AllSized ds ∧ parse [] ds = .ub := by
  refine ⟨⟨"E", [.field ⟨"id", 4, 4, 0⟩], false, false⟩ ::
      [⟨"S", List.replicate 9 (.use "E"), false, false⟩], ?_, ?_, ?_, by decide +kernel⟩
  · simp [Ordered, Ordered.go]
  · intro d hd
    simp only [List.mem_cons, List.not_mem_nil, or_false] at hd
    rcases hd with rfl | rfl <;> simp [List.replicate]
  · intro d hd f hf
    simp only [List.mem_cons, List.not_mem_nil, or_false] at hd
    rcases hd with rfl | rfl
    · simp at hf; subst hf; decide
    · simp [List.replicate] at hf

/-! ## C92: methods of an embedded struct -/

theorem expands_sized (ds : List Decl) (hz : AllSized ds) (is : List Item) (fs : List Fld)
    (h : Expands ds is fs)
    (hi : ∀ f : Fld, (Item.field f ∈ is ∨ Item.named f ∈ is) → 0 < f.size ∧ 0 < f.align) :
    Sized fs := by
  induction h with
  | nil => intro f hf; simp at hf
  | field f r fs _ ih =>
    intro g hg
    rcases List.mem_cons.mp hg with rfl | hg
    · exact hi g (by simp)
    · exact ih (fun f hf => hi f (by rcases hf with hf | hf <;> simp [hf])) g hg
  | named f r fs _ ih =>
    intro g hg
    rcases List.mem_cons.mp hg with rfl | hg
    · exact hi g (by simp)
    · exact ih (fun f hf => hi f (by rcases hf with hf | hf <;> simp [hf])) g hg
  | use d r gs fs hd _ _ ih1 ih2 =>
    intro g hg
    rcases List.mem_append.mp hg with hg | hg
    · exact ih1 (fun f hf => hz d hd f hf) g hg
    · exact ih2 (fun f hf => hi f (by rcases hf with hf | hf <;> simp [hf])) g hg

theorem known_iff (fs : Funs) (n : String) :
    known fs n = true ↔ ∃ f : String × Code, fs.find? (fun f => f.1 == n) = some f := by
  unfold known
  rw [List.any_eq_true]
  constructor
  · rintro ⟨f, hf, hn⟩
    cases h : fs.find? (fun f => f.1 == n) with
    | some g => exact ⟨g, rfl⟩
    | none => rw [List.find?_eq_none] at h; exact absurd hn (h f hf)
  · rintro ⟨f, hf⟩
    exact ⟨f, List.mem_of_find?_eq_some hf, List.find?_some (p := fun f : String × Code => f.1 == n) hf⟩

theorem cut_short (s : String) (h : s.toList.length ≤ 127) : cut s = s := by
  unfold cut
  rw [List.take_of_length_le h]
  exact String.ofList_toList

/-- **C92**: if a struct begins with `use K`, a method of `K` called on one of its objects does with
the fields of that object what it says and leaves the other fields alone: the result is that of the
body run on the record of the object's fields.  For structs that are no unions, both packed or both
not, without bit fields in embedded structs, and for methods that do not assign `*self` as a whole,
unless `K` has no padding at its end. -/
theorem through_partial (ds : List Decl) (env : List SDef) (ho : Ordered ds) (hb : NoBits ds)
    (hz : AllSized ds) (hp : parse [] ds = .ok env)
    (s k : Decl) (hs : s ∈ ds) (hk : k ∈ ds) (rest : List Item) (hi : s.items = .use k.name :: rest)
    (hsu : s.union = false) (hku : k.union = false) (hpk : s.packed = k.packed)
    (fs : Funs) (m : String) (f : String × Code)
    (hf : fs.find? (fun f => f.1 == mangle k.name m) = some f)
    (hown : known fs (mangle s.name m) = false) (hl : (mangle k.name m).toList.length ≤ 127) :
    ∃ sd kd, find env s.name = some sd ∧ find env k.name = some kd ∧
      Expands ds s.items sd.fields ∧ Expands ds k.items kd.fields ∧
      ((NoAssign f.2 ∨ sizeOf kd ≤ extent (places kd)) →
        ∀ mem, (call env fs false s.name m mem).map (fun p => (p.1, val sd p.2))
          = exec kd f.2 (val sd mem)) := by
  have hold := parse_holds ds hb ds [] [] env ho (fun _ h => h)
    (fun _ h => by simp at h) (fun _ h => by simp at h) hp
  obtain ⟨kd, hk1, hk2, hk3, hk4, hk5, hk6⟩ := hold k (.inr hk)
  obtain ⟨sd, hs1, hs2, hs3, hs4, hs5, hs6⟩ := hold s (.inr hs)
  refine ⟨sd, kd, hs1, hk1, hs2, hk2, ?_⟩
  -- the struct begins with the fields of `k`
  have pre : ∃ r, sd.fields = kd.fields ++ r := by
    have names : ∀ (seen : List String) (ds : List Decl), Ordered.go seen ds →
        ∀ a ∈ ds, a.name ∉ seen ∧ ∀ b ∈ ds, a.name = b.name → a = b := by
      intro seen ds
      induction ds generalizing seen with
      | nil => intro _ a ha; simp at ha
      | cons x r ih =>
        rintro ⟨h1, _, h3⟩ a ha
        have hr := ih (x.name :: seen) h3
        rcases List.mem_cons.mp ha with rfl | ha'
        · refine ⟨h1, fun b hb hab => ?_⟩
          rcases List.mem_cons.mp hb with hb | hb
          · exact hb.symm
          · exact absurd (by simp [hab]) (hr b hb).1
        · refine ⟨fun h => (hr a ha').1 (by simp [h]), fun b hb hab => ?_⟩
          rcases List.mem_cons.mp hb with hb | hb
          · exact absurd (by simp [hab, hb]) (hr a ha').1
          · exact (hr a ha').2 b hb hab
    have uniq : ∀ a ∈ ds, ∀ b ∈ ds, a.name = b.name → a = b :=
      fun a ha b hb => (names [] ds ho a ha).2 b hb
    have det : ∀ {is : List Item} {xs : List Fld}, Expands ds is xs →
        ∀ {ys : List Fld}, Expands ds is ys → xs = ys := by
      intro is xs h
      induction h with
      | nil => intro ys h'; cases h'; rfl
      | field f r fs _ ih => intro ys h'; cases h' with | field _ _ _ h' => rw [ih h']
      | named f r fs _ ih => intro ys h'; cases h' with | named _ _ _ h' => rw [ih h']
      | use d r gs fs hd _ _ ih1 ih2 =>
        intro ys h'
        generalize hn : Item.use d.name :: r = is' at h'
        cases h' with
        | nil => simp at hn
        | field => simp at hn
        | named => simp at hn
        | use d' r' gs' fs' hd' h1 h2 =>
          simp only [List.cons.injEq, Item.use.injEq] at hn
          obtain ⟨hn, rfl⟩ := hn
          have := uniq d hd d' hd' hn
          subst this
          rw [ih1 h1, ih2 h2]
    rw [hi] at hs2
    generalize hn : Item.use k.name :: rest = is' at hs2
    generalize hg : sd.fields = sfs at hs2
    cases hs2 with
    | nil => simp at hn
    | field => simp at hn
    | named => simp at hn
    | use d' r' gs' fs' hd' h1 h2 =>
      simp only [List.cons.injEq, Item.use.injEq] at hn
      obtain ⟨hn, rfl⟩ := hn
      have := uniq k hk d' hd' hn
      subst this
      exact ⟨fs', by rw [det h1 hk2]⟩
  obtain ⟨r, hr⟩ := pre
  have hu1 : sd.union = false := by rw [hs3, hsu]
  have hu2 : kd.union = false := by rw [hk3, hku]
  have hpp : sd.packed = kd.packed := by rw [hs4, hk4, hpk]
  have hsz := expands_sized ds hz _ _ hs2 (hz s hs)
  intro hc mem
  have hbase : base env fs false s.name m = k.name := by
    simp only [base, Bool.false_eq_true, if_false, hown, hs1, hs5, hi, uses, List.filterMap_cons,
      List.find?_cons, cut_short _ hl, (known_iff fs _).mpr ⟨f, hf⟩]
  have hcall : call env fs false s.name m mem = run kd f.2 mem := by
    simp only [call, hbase, hf, hk1]
  rw [hcall]
  refine works_of_same (same_of sd kd r hu1 hu2 hpp hr) (apart_of sd hu1 hsz) ?_ mem
  rcases hc with hc | hc
  · exact .inl hc
  · exact .inr (beyond_of sd kd r hu1 hu2 hpp hr hsz hc)

/-- A struct's own method is preferred to one of an embedded struct, and works on the whole object,
`*self = src` included. -/
theorem own (ds : List Decl) (env : List SDef) (ho : Ordered ds) (hb : NoBits ds)
    (hz : AllSized ds) (hp : parse [] ds = .ok env) (s : Decl) (hs : s ∈ ds) (hsu : s.union = false)
    (fs : Funs) (m : String) (f : String × Code)
    (hf : fs.find? (fun f => f.1 == mangle s.name m) = some f) (rvalue : Bool) :
    ∃ sd, find env s.name = some sd ∧ Expands ds s.items sd.fields ∧
      ∀ mem, (call env fs rvalue s.name m mem).map (fun p => (p.1, val sd p.2))
        = exec sd f.2 (val sd mem) := by
  obtain ⟨sd, h1, h2, h3, h4, h5⟩ := fields_partial ds env ho hb hp s hs
  refine ⟨sd, h1, h2, fun mem => ?_⟩
  have hbase : base env fs rvalue s.name m = s.name := by
    simp only [base, (known_iff fs _).mpr ⟨f, hf⟩, if_pos, ite_self]
  have hcall : call env fs rvalue s.name m mem = run sd f.2 mem := by
    simp only [call, hbase, hf, h1]
  rw [hcall]
  refine works_of_same (fun _ _ => rfl)
    (apart_of sd (by rw [h3, hsu]) (expands_sized ds hz _ _ h2 (hz s hs))) (.inr ?_) mem
  intro n p hn hd
  rw [hn] at hd
  simp at hd

/-- Exactly when the getter of a field works through the cast: when the field is at the same place
in both structs. -/
theorem getter_iff (d k : SDef) (f : String) (p q : Nat × Nat) (hk : slot k f = some p)
    (hd : slot d f = some q) (hp : 0 < p.2) : Works d k (getter f) ↔ p = q := by
  refine ⟨getter_same hk hd hp, fun h m => ?_⟩
  subst h
  obtain ⟨g, h1, _, _, _⟩ := slot_some hk
  simp [getter, run, hk, exec, any_find, h1, val, hd]

/-- The README's program with a getter and a setter in `Entity` meets the hypotheses of
`through_partial` and `own`. -/
theorem players_demo (v : Bits) :
    ∃ (fs : Funs) (s k : Decl) (rest : List Item), s ∈ readme ∧ k ∈ readme ∧
      s.items = .use k.name :: rest ∧ s.union = false ∧ k.union = false ∧ s.packed = k.packed ∧
      fs.find? (fun f => f.1 == mangle k.name "id_of") = some (mangle k.name "id_of", getter "id") ∧
      fs.find? (fun f => f.1 == mangle k.name "set_id")
        = some (mangle k.name "set_id", .write "id" v (.ret v)) ∧
      known fs (mangle s.name "id_of") = false ∧ known fs (mangle s.name "set_id") = false ∧
      (mangle k.name "set_id").toList.length ≤ 127 ∧
      NoAssign (getter "id") ∧ NoAssign (.write "id" v (.ret v)) := by
  refine ⟨[("Entity__id_of", getter "id"), ("Entity__set_id", .write "id" v (.ret v))],
    ⟨"Player", [.use "Entity", .field ⟨"name", 8, 8, 0⟩], false, false⟩,
    ⟨"Entity", [.field ⟨"id", 4, 4, 0⟩], false, false⟩, _, by decide +kernel, by decide +kernel,
    rfl, rfl, rfl, rfl, ?_, ?_, ?_, ?_, by decide +kernel, .read _ _ (fun w => .ret w),
    .write _ _ _ (.ret _)⟩
  · have e : "Entity__id_of" = mangle "Entity" "id_of" := by decide +kernel
    rw [← e]
    simp
  · have e : "Entity__set_id" = mangle "Entity" "set_id" := by decide +kernel
    rw [← e]
    simp
  · have h : ("Entity__id_of" == mangle "Player" "id_of") = false := by decide +kernel
    have h' : ("Entity__set_id" == mangle "Player" "id_of") = false := by decide +kernel
    simp [known, h, h']
  · have h : ("Entity__id_of" == mangle "Player" "set_id") = false := by decide +kernel
    have h' : ("Entity__set_id" == mangle "Player" "set_id") = false := by decide +kernel
    simp [known, h, h']

/-- Whatever stands before the fields of an embedded struct, the getter of its first field reads
something else: only the first `use` of a struct works. -/
theorem moved_violated (d k : SDef) (pre rest : List Fld) (f : Fld) (fs : List Fld)
    (hd : d.fields = pre ++ (k.fields ++ rest)) (hk : k.fields = f :: fs) (hw : f.width = 0)
    (hu : d.union = false) (hs : Sized d.fields) (hp : pre ≠ [])
    (hn : ∀ g ∈ pre, g.name ≠ f.name) : ¬ Works d k (getter f.name) := by
  have hfs : 0 < f.size ∧ 0 < f.align := hs f (by rw [hd, hk]; simp)
  have k1 : slot k f.name = some (0, len f) := by
    unfold slot places
    split
    · simp [hk]
    · simp [hk, layout, place_zero _ f hfs hw]
  have hpre : ∀ off, (layout d.packed off pre).find? (fun p => p.1.name == f.name) = none := by
    intro off
    rw [List.find?_eq_none]
    intro q hq
    have : q.1 ∈ (layout d.packed off pre).map Prod.fst := List.mem_map.mpr ⟨q, hq, rfl⟩
    rw [layout_fst] at this
    simpa using hn q.1 this
  have d1 : slot d f.name = some (place d.packed (stop d.packed 0 pre) f, len f) := by
    unfold slot places
    rw [hu, hd, hk]
    simp [layout_append, List.find?_append, hpre, layout]
  intro h
  have := getter_same k1 d1 (len_pos f hfs) h
  have h1 := stop_pos d.packed 0 pre (fun g hg => hs g (by rw [hd]; simp [hg])) hp
  have h2 := place_ge d.packed (stop d.packed 0 pre) f hfs
  have h3 : 0 = place d.packed (stop d.packed 0 pre) f := congrArg Prod.fst this
  omega

/-- `struct S { use A; use B; }` with a field in each meets the hypotheses of `moved_violated`, and
the call goes through the cast. -/
theorem second_demo :
    ∃ env d k, parse [] [⟨"A", [.field ⟨"x", 4, 4, 0⟩], false, false⟩,
        ⟨"B", [.field ⟨"y", 4, 4, 0⟩], false, false⟩, ⟨"S", [.use "A", .use "B"], false, false⟩]
        = .ok env ∧ find env "S" = some d ∧ find env "B" = some k ∧
      d.fields = [⟨"x", 4, 4, 0⟩] ++ (k.fields ++ []) ∧ k.fields = [⟨"y", 4, 4, 0⟩] ∧
      d.union = false ∧ Sized d.fields ∧
      base env [("B__get", getter "y")] false "S" "get" = "B" := by
  refine ⟨[⟨"S", [⟨"x", 4, 4, 0⟩, ⟨"y", 4, 4, 0⟩], false, false, ["A", "B"]⟩,
    ⟨"B", [⟨"y", 4, 4, 0⟩], false, false, []⟩, ⟨"A", [⟨"x", 4, 4, 0⟩], false, false, []⟩],
    ⟨"S", [⟨"x", 4, 4, 0⟩, ⟨"y", 4, 4, 0⟩], false, false, ["A", "B"]⟩,
    ⟨"B", [⟨"y", 4, 4, 0⟩], false, false, []⟩, by decide +kernel, by decide +kernel,
    by decide +kernel, by decide +kernel, by decide +kernel, rfl, ?_, ?_⟩
  · intro f hf
    simp at hf
    rcases hf with rfl | rfl <;> decide
  · have h1 : ("B__get" == mangle "S" "get") = false := by decide +kernel
    have h2 : ("B__get" == cut (mangle "A" "get")) = false := by decide +kernel
    have h3 : ("B__get" == cut (mangle "B" "get")) = true := by decide +kernel
    have h4 : ("S" == "S") = true := by decide +kernel
    simp [base, known, h1, h2, h3, find]

/-- A method of a struct with bit fields, embedded first, reads the wrong bits. -/
theorem bits_violated :
    ∃ env d k, parse [] [⟨"F", [.field ⟨"a", 1, 1, 3⟩, .field ⟨"b", 1, 1, 5⟩], false, false⟩,
        ⟨"S", [.use "F"], false, false⟩] = .ok env ∧ find env "S" = some d ∧ find env "F" = some k ∧
      ¬ Works d k (getter "b") := by
  refine ⟨[⟨"S", [⟨"a", 1, 1, 0⟩, ⟨"b", 1, 1, 0⟩], false, false, ["F"]⟩,
    ⟨"F", [⟨"a", 1, 1, 3⟩, ⟨"b", 1, 1, 5⟩], false, false, []⟩], _, _, by decide +kernel,
    rfl, rfl, ?_⟩
  intro h
  have := getter_same (p := (3, 5)) (q := (8, 8)) (by decide +kernel) (by decide +kernel) (by decide) h
  exact absurd this (by decide)

/-- A method of a packed struct, embedded first in one that is not packed, reads the wrong bits. -/
theorem packed_violated :
    ∃ env d k, parse [] [⟨"F", [.field ⟨"a", 1, 1, 0⟩, .field ⟨"b", 4, 4, 0⟩], false, true⟩,
        ⟨"S", [.use "F"], false, false⟩] = .ok env ∧ find env "S" = some d ∧ find env "F" = some k ∧
      ¬ Works d k (getter "b") := by
  refine ⟨[⟨"S", [⟨"a", 1, 1, 0⟩, ⟨"b", 4, 4, 0⟩], false, false, ["F"]⟩,
    ⟨"F", [⟨"a", 1, 1, 0⟩, ⟨"b", 4, 4, 0⟩], false, true, []⟩], _, _, by decide +kernel,
    rfl, rfl, ?_⟩
  intro h
  have := getter_same (p := (8, 32)) (q := (32, 32)) (by decide +kernel) (by decide +kernel)
    (by decide) h
  exact absurd this (by decide)

/-- The members of an embedded union no longer overlap. -/
theorem union_violated :
    ∃ env d k, parse [] [⟨"U", [.field ⟨"i", 4, 4, 0⟩, .field ⟨"f", 4, 4, 0⟩], true, false⟩,
        ⟨"S", [.use "U"], false, false⟩] = .ok env ∧ find env "S" = some d ∧ find env "U" = some k ∧
      ¬ Works d k (getter "f") := by
  refine ⟨[⟨"S", [⟨"i", 4, 4, 0⟩, ⟨"f", 4, 4, 0⟩], false, false, ["U"]⟩,
    ⟨"U", [⟨"i", 4, 4, 0⟩, ⟨"f", 4, 4, 0⟩], true, false, []⟩], _, _, by decide +kernel,
    rfl, rfl, ?_⟩
  intro h
  have := getter_same (p := (0, 32)) (q := (32, 32)) (by decide +kernel) (by decide +kernel)
    (by decide) h
  exact absurd this (by decide)

/-- A method that assigns `*self` overwrites a field of the outer struct that lies in the padding at
the end of the embedded one. -/
theorem padding_violated :
    ∃ env d k c, parse [] [⟨"F", [.field ⟨"a", 8, 8, 0⟩, .field ⟨"b", 1, 1, 0⟩], false, false⟩,
        ⟨"S", [.use "F", .field ⟨"c", 1, 1, 0⟩], false, false⟩] = .ok env ∧
      find env "S" = some d ∧ find env "F" = some k ∧ Same d k ∧ ¬ Works d k c := by
  refine ⟨[⟨"S", [⟨"a", 8, 8, 0⟩, ⟨"b", 1, 1, 0⟩, ⟨"c", 1, 1, 0⟩], false, false, ["F"]⟩,
    ⟨"F", [⟨"a", 8, 8, 0⟩, ⟨"b", 1, 1, 0⟩], false, false, []⟩], _, _,
    .assign (fun _ => true) (.ret (fun _ => false)), by decide +kernel, rfl, rfl, ?_, ?_⟩
  · intro f hf
    simp at hf
    rcases hf with rfl | rfl <;> decide +kernel
  · intro h
    have := h (fun _ => false)
    simp only [run, exec, Option.map_some, Option.some.injEq, Prod.mk.injEq, true_and] at this
    have := congrFun (congrFun this "c") 0
    revert this
    decide +kernel

/-- The method of a struct embedded in an embedded struct is not found, although its fields are
there: the emitted call names a function that does not exist. -/
theorem deep_violated (mem : Bits) :
    ∃ ds env fs, parse [] ds = .ok env ∧ Ordered ds ∧ NoBits ds ∧ Embeds ds "S" "A" ∧
      known fs (mangle "A" "get") = true ∧ (find env "S").map (·.fields.map (·.name)) = some ["x"] ∧
      call env fs false "S" "get" mem = none := by
  refine ⟨[⟨"A", [.field ⟨"x", 4, 4, 0⟩], false, false⟩, ⟨"B", [.use "A"], false, false⟩,
      ⟨"S", [.use "B"], false, false⟩],
    [⟨"S", [⟨"x", 4, 4, 0⟩], false, false, ["B"]⟩, ⟨"B", [⟨"x", 4, 4, 0⟩], false, false, ["A"]⟩,
      ⟨"A", [⟨"x", 4, 4, 0⟩], false, false, []⟩],
    [("A__get", getter "x")], by decide +kernel, ?_, ?_, ?_, ?_, by decide +kernel, ?_⟩
  · simp [Ordered, Ordered.go]
  · intro d hd
    simp only [List.mem_cons, List.not_mem_nil, or_false] at hd
    rcases hd with rfl | rfl | rfl <;> simp
  · exact .deep ⟨"S", [.use "B"], false, false⟩ "B" "A" (by simp) (by simp)
      (.direct ⟨"B", [.use "A"], false, false⟩ "A" (by simp) (by simp))
  · have h : ("A__get" == mangle "A" "get") = true := by decide +kernel
    simp [known, h]
  · have h1 : ("A__get" == mangle "S" "get") = false := by decide +kernel
    have h2 : ("A__get" == cut (mangle "B" "get")) = false := by decide +kernel
    simp [call, base, known, h1, h2, find]

/-- On a value that is no variable, a method of an embedded struct is not found. -/
theorem rvalue_violated (mem : Bits) :
    ∃ ds env fs, parse [] ds = .ok env ∧ Ordered ds ∧ NoBits ds ∧
      known fs (mangle "A" "get") = true ∧ (call env fs false "S" "get" mem).isSome = true ∧
      call env fs true "S" "get" mem = none := by
  refine ⟨[⟨"A", [.field ⟨"x", 4, 4, 0⟩], false, false⟩, ⟨"S", [.use "A"], false, false⟩],
    [⟨"S", [⟨"x", 4, 4, 0⟩], false, false, ["A"]⟩, ⟨"A", [⟨"x", 4, 4, 0⟩], false, false, []⟩],
    [("A__get", getter "x")], by decide +kernel, ?_, ?_, ?_, ?_, ?_⟩
  · simp [Ordered, Ordered.go]
  · intro d hd
    simp only [List.mem_cons, List.not_mem_nil, or_false] at hd
    rcases hd with rfl | rfl <;> simp
  · have h : ("A__get" == mangle "A" "get") = true := by decide +kernel
    simp [known, h]
  · have h1 : ("A__get" == mangle "S" "get") = false := by decide +kernel
    have h2 : ("A__get" == cut (mangle "A" "get")) = true := by decide +kernel
    have h3 : ("A__get" == mangle "A" "get") = true := by decide +kernel
    have h4 : slot ⟨"A", [⟨"x", 4, 4, 0⟩], false, false, []⟩ "x" = some (0, 32) := by decide +kernel
    simp [call, base, known, h1, h2, h3, find, getter, run, h4]
  · have h1 : ("A__get" == mangle "S" "get") = false := by decide +kernel
    simp [call, base, h1]

/-- A method whose emitted name has more than 127 letters is not found in an embedded struct. -/
theorem long_violated (mem : Bits) :
    ∃ env fs, ∃ m : String, parse [] [⟨"A", [.field ⟨"x", 4, 4, 0⟩], false, false⟩,
        ⟨"S", [.use "A"], false, false⟩] = .ok env ∧
      known fs (mangle "A" m) = true ∧ call env fs false "S" m mem = none := by
  let m := String.ofList (List.replicate 130 'a')
  refine ⟨[⟨"S", [⟨"x", 4, 4, 0⟩], false, false, ["A"]⟩, ⟨"A", [⟨"x", 4, 4, 0⟩], false, false, []⟩],
    [(mangle "A" m, getter "x")], m, by decide +kernel, ?_, ?_⟩
  · simp [known]
  · have h1 : (mangle "A" m == mangle "S" m) = false := by decide +kernel
    have h2 : (mangle "A" m == cut (mangle "A" m)) = false := by decide +kernel
    simp [call, base, known, h1, h2, find]

end Verif.Mixin
