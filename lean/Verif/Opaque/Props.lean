import Verif.Opaque.Bodies

/-! # Opaque types: what holds and what does not -/

namespace Verif.Opaque
open Spec

/-! ## C90: opaque structs -/

/-- **C90 (partial).** In an accepted program no function reads or writes a field of an opaque struct
of another file, or builds one, or calls one of its methods.  Missing, and false without these
conditions (see below): functions and structs are declared above their uses, structs are not taken
apart with `let {…}`, no template is opaque, opaque aliases stand for numbers and strings. -/
theorem sealed_partial {P pre post : Program} {f n : String} {ps : List (String × Ty)} {r : Ty}
    {body : List Stmt} (h : accepts ⟨[], []⟩ P = true) (hP : P = pre ++ (f, .fn n ps r body) :: post)
    (nt : NoOpaqueTemplate P) (pl : AllTypes Plain P)
    (td : Tidy (world (pre ++ [(f, .fn n ps r body)])) (world P) (start ps) body) (s : String)
    (o : Opens (world P) (start ps) body s ∨ Calls (world P) (start ps) body s) :
    ¬ Foreign (world P) f s := by
  have hm : (f, Decl.fn n ps r body) ∈ P := by rw [hP]; simp
  have hb := (accepts_iff P _).1 h pre f n ps r body post hP
  have S := same_world (pre ++ [(f, .fn n ps r body)])
    (NoOpaqueTemplate.left (Q := post) (by rw [List.append_assoc]; exact hP ▸ nt))
  have H := holds_world pl hm
  have B := bodyOk pl hm td
  have hat := (body_at S f body _ H B).1 hb
  have T : ∀ {V W Γ e}, Holds Plain W Γ → Ok Plain V W Γ e → ∀ t, typ W Γ e = some t → Plain t :=
    fun H ok t ht => typ_plain H ok ht
  rcases o with ⟨Δ, st, ha, o⟩ | ⟨Δ, st, ha, e, hw, o⟩
  · rcases o with ⟨e, hw, o⟩ | ⟨ns, e, rfl, _, _⟩
    · exact check_sound S (holds_at T ha H B) f (B.ok Δ st ha) (hat Δ st ha).1 hw (Or.inl o)
    · exact absurd rfl (B.nosplit Δ _ ha ns e)
  · exact check_sound S (holds_at T ha H B) f (B.ok Δ st ha) (hat Δ st ha).1 hw (Or.inr o)

/-- Comparisons are between like types. -/
def Alike (W : World) (Γ : List (String × Option Ty)) (body : List Stmt) : Prop :=
  ∀ Δ s, At W Γ body Δ s → ∀ l r, Within (.bin true l r) (exprOf s) →
    ∀ x y, typ W Δ l = some x → typ W Δ r = some y → typeEq x y = true

/-- **C90 (partial).** The other direction: a program without opaque aliases whose functions keep to
their own structs is accepted: values of opaque structs of other files may be held, copied, passed
on, pointed at, stored in arrays and fields.  So the test refuses exactly what it should, except that
calling a method from another file counts as reading a field (see `method_violated`). -/
theorem usable_partial {P : Program} (nt : NoOpaqueTemplate P) (pl : AllTypes NoAlias P)
    (td : ∀ pre f n ps r body post, P = pre ++ (f, .fn n ps r body) :: post →
      Tidy (world (pre ++ [(f, .fn n ps r body)])) (world P) (start ps) body ∧
      Alike (world P) (start ps) body)
    (hn : ∀ f n ps r body, (f, .fn n ps r body) ∈ P → ∀ s,
      Opens (world P) (start ps) body s ∨ Calls (world P) (start ps) body s → ¬ Foreign (world P) f s) :
    accepts ⟨[], []⟩ P = true := by
  rw [accepts_iff]
  intro pre f n ps r body post hP
  have hm : (f, Decl.fn n ps r body) ∈ P := by rw [hP]; simp
  have S := same_world (pre ++ [(f, .fn n ps r body)])
    (NoOpaqueTemplate.left (Q := post) (by rw [List.append_assoc]; exact hP ▸ nt))
  have plP : AllTypes Plain P := by
    intro p hp
    have := pl p hp
    split <;> rename_i e <;> rw [e] at this
    · exact fun x hx => noAlias_plain (this x hx)
    · trivial
    · exact fun x hx => noAlias_plain (this x hx)
    · refine ⟨fun x hx => noAlias_plain (this.1 x hx), noAlias_plain this.2.1, fun s hs => ⟨?_, ?_⟩⟩
      · exact fun x T e he => noAlias_plain ((this.2.2 s hs).1 x T e he)
      · exact fun t e he => noAlias_plain ((this.2.2 s hs).2 t e he)
  obtain ⟨td, al⟩ := td pre f n ps r body post hP
  have HP := holds_world plP hm
  have BP := bodyOk plP hm td
  have H := holds_world pl hm
  have B := bodyOk pl hm td
  rw [body_at S f body _ HP BP]
  intro Δ s ha
  have HΔ := holds_at (fun H ok t ht => typ_noAlias H ok ht) ha H B
  refine ⟨check_complete S HΔ f _ (B.ok Δ s ha) ?_ (al Δ s ha), ?_⟩
  · intro a m hw o
    refine hn f n ps r body hm m ?_
    rcases o with o | o
    · exact Or.inl ⟨Δ, s, ha, Or.inl ⟨a, hw, o⟩⟩
    · exact Or.inr ⟨Δ, s, ha, a, hw, o⟩
  · intro x T e t he ht
    subst he
    have := compat_noAlias f (B.lets Δ _ ha x T e rfl) (typ_noAlias HΔ (B.ok Δ _ ha) ht)
    simp [fits, this]

/-! ### A program to try it on -/

/-- `user.zc` of the README with a method, and `main.zc` that holds a user, passes its address on and
calls `get_id(&u)`. -/
def users : Program :=
  [("user.zc", .struct "User" true [("id", .int), ("name", .str)]),
   ("user.zc", .fn "new_user" [("name", .str)] (.struct "User")
      [.ret (.lit "User" (.cons "id" .num (.cons "name" (.var "name") .nil)))]),
   ("user.zc", .fn "get_id" [("u", .ptr (.struct "User"))] .int [.ret (.mem (.var "u") "id")]),
   ("user.zc", .fn "User__id_of" [("self", .ptr (.struct "User"))] .int [.ret (.mem (.var "self") "id")])]

/-- The main file, with one more statement. -/
def mainWith (s : List Stmt) : Program :=
  users ++ [("main.zc", .fn "main" [] .int
    ([.bind "u" none (.call "new_user" (.cons "" .text .nil)),
      .bind "v" (some (.struct "User")) (.var "u"),
      .bind "i" none (.call "get_id" (.cons "" (.addr (.var "v")) .nil))] ++ s))]

/-- It is accepted; with `u.id`, `(&u)->id` or `User{id: 1}` it is not; in `user.zc` all of it is. -/
theorem users_demo :
    accepts ⟨[], []⟩ (mainWith []) = true ∧
    accepts ⟨[], []⟩ (mainWith [.expr (.mem (.var "u") "id")]) = false ∧
    accepts ⟨[], []⟩ (mainWith [.expr (.mem (.addr (.var "u")) "id")]) = false ∧
    accepts ⟨[], []⟩ (mainWith [.expr (.lit "User" (.cons "id" .num .nil))]) = false ∧
    accepts ⟨[], []⟩ (mainWith [.expr (.bin false (.mem (.var "u") "id") .num)]) = false := by
  decide

/-- The README's `main.zc` meets the hypotheses of `sealed_partial`, and in it `User` is foreign. -/
theorem users_tidy :
    NoOpaqueTemplate (mainWith []) ∧ AllTypes Plain (mainWith []) ∧
    Foreign (world (mainWith [])) "main.zc" "User" ∧
    ∃ n ps r body, mainWith [] = users ++ ("main.zc", .fn n ps r body) :: [] ∧
      Tidy (world (users ++ [("main.zc", .fn n ps r body)])) (world (mainWith [])) (start ps) body := by
  refine ⟨?_, ?_, ⟨⟨"User", true, some "user.zc", [("id", .int), ("name", .str)]⟩, by decide, rfl, by decide⟩,
    _, _, _, _, rfl, ?_⟩
  · intro f n o h
    simp [mainWith, users] at h
  · intro p hp
    simp [mainWith, users] at hp
    rcases hp with rfl | rfl | rfl | rfl | rfl <;> simp [Plain]
    · exact fun t e h => absurd (within_subs h) (by simp [exprOf, subs])
    · exact fun t e h => absurd (within_subs h) (by simp [exprOf, subs])
    · exact fun t e h => absurd (within_subs h) (by simp [exprOf, subs])
    · refine ⟨?_, ?_, ?_⟩
      all_goals exact fun t e h => absurd (within_subs h) (by simp [exprOf, subs])
  · intro Δ s h
    have hs := at_mem h
    refine ⟨fun e he => ?_, ?_⟩
    · cases e with
      | call => rfl
      | mem => intro _ _; rfl
      | mcall => intro _ _; exact ⟨rfl, rfl⟩
      | lit => rfl
      | idx e i =>
        exfalso
        have := within_subs he
        simp at hs
        rcases hs with rfl | rfl | rfl <;> simp [exprOf, subs] at this
      | _ => trivial
    · simp at hs
      rcases hs with rfl | rfl | rfl <;> intro ns e h <;> cases h

/-- A program for `usable_partial`: another file holds an opaque value and gives it back. -/
def holder : Program :=
  [("s.zc", .struct "S" true [("x", .int)]),
   ("m.zc", .fn "hold" [("s", .struct "S")] (.struct "S") [.bind "t" none (.var "s"), .ret (.var "t")])]

/-- It meets the hypotheses, and is accepted by `usable_partial`. -/
theorem holder_accepted : accepts ⟨[], []⟩ holder = true ∧ Foreign (world holder) "m.zc" "S" := by
  have hat : ∀ Γ Δ s e, At (world holder) Γ [.bind "t" none (.var "s"), .ret (.var "t")] Δ s →
      Within e (exprOf s) → ∃ x, e = .var x := by
    intro Γ Δ s e h hw
    have hs := at_mem h
    have := within_subs hw
    simp at hs
    rcases hs with rfl | rfl <;> simp [exprOf, subs] at this <;> exact ⟨_, this⟩
  have spl : ∀ Γ Δ s, At (world holder) Γ [.bind "t" none (.var "s"), .ret (.var "t")] Δ s →
      ∀ ns e, s ≠ .split ns e := by
    intro Γ Δ s h ns e
    have hs := at_mem h
    simp at hs
    rcases hs with rfl | rfl <;> simp
  refine ⟨usable_partial ?_ ?_ ?_ ?_,
    ⟨⟨"S", true, some "s.zc", [("x", .int)]⟩, by decide, rfl, by decide⟩⟩
  · intro f n o h; simp [holder] at h
  · intro p hp
    simp [holder] at hp
    rcases hp with rfl | rfl <;> simp [NoAlias]
    exact ⟨fun t e h => absurd (within_subs h) (by simp [exprOf, subs]),
      fun t e h => absurd (within_subs h) (by simp [exprOf, subs])⟩
  · intro pre f n ps r body post h
    have hm : (f, Decl.fn n ps r body) ∈ holder := by rw [h]; simp
    simp [holder] at hm
    obtain ⟨rfl, rfl, rfl, rfl, rfl⟩ := hm
    refine ⟨fun Δ s ha => ⟨fun e he => ?_, spl _ Δ s ha⟩, fun Δ s ha l r he => ?_⟩
    · obtain ⟨x, rfl⟩ := hat _ Δ s e ha he
      trivial
    · obtain ⟨x, hx⟩ := hat _ Δ s _ ha he
      cases hx
  · intro f n ps r body hm s ho
    simp [holder] at hm
    obtain ⟨rfl, rfl, rfl, rfl, rfl⟩ := hm
    exfalso
    rcases ho with ⟨Δ, st, ha, ⟨e, hw, o⟩ | ⟨ns, e, he, _⟩⟩ | ⟨Δ, st, ha, e, hw, o⟩
    · obtain ⟨x, rfl⟩ := hat _ Δ st e ha hw
      exact o
    · exact spl _ Δ st ha ns e he
    · obtain ⟨x, rfl⟩ := hat _ Δ st e ha hw
      exact o

/-! ### Where it fails -/

/-- **C90 is violated**: `let {id} = u` outside the file is accepted; it reads the field. -/
theorem split_violated :
    accepts ⟨[], []⟩ (mainWith [.split [("id", "id")] (.var "u")]) = true ∧
    ∃ body, mainWith [.split [("id", "id")] (.var "u")] = users ++ [("main.zc", .fn "main" [] .int body)] ∧
      Opens (world (mainWith [.split [("id", "id")] (.var "u")])) [] body "User" ∧
      Foreign (world (mainWith [.split [("id", "id")] (.var "u")])) "main.zc" "User" := by
  refine ⟨by decide, _, rfl, ⟨_, .split [("id", "id")] (.var "u"), .later (.later (.later (.here _ _ _))),
    Or.inr ⟨_, _, rfl, by simp, ?_⟩⟩, ?_⟩
  · decide
  · exact ⟨⟨"User", true, some "user.zc", [("id", .int), ("name", .str)]⟩, by decide, rfl, by decide⟩

/-- A library whose function comes after the code that uses it. -/
def laterUse : Program :=
  [("user.zc", .struct "User" true [("id", .int)]),
   ("main.zc", .fn "main" [] .int [.ret (.mem (.call "new_user" .nil) "id")]),
   ("user.zc", .fn "new_user" [] (.struct "User") [.ret (.lit "User" (.cons "id" .num .nil))])]

/-- **C90 is violated**: the result of a function that is declared later has no type yet, so its
fields are open. -/
theorem later_violated :
    accepts ⟨[], []⟩ laterUse = true ∧
    Opens (world laterUse) [] [.ret (.mem (.call "new_user" .nil) "id")] "User" ∧
    Foreign (world laterUse) "main.zc" "User" := by
  refine ⟨by decide, ⟨_, _, .here _ _ _, Or.inl ⟨_, .refl _, ?_⟩⟩, ?_⟩
  · show (typ (world laterUse) [] (.call "new_user" .nil)).bind target = some "User"
    decide
  · exact ⟨⟨"User", true, some "user.zc", [("id", .int)]⟩, by decide, rfl, by decide⟩

/-- An opaque generic struct, and another file that reads a field of an instance. -/
def generic : Program :=
  [("box.zc", .template "Box" true),
   ("main.zc", .inst "Box" "Box_int" [("value", .int)]),
   ("main.zc", .fn "peek" [("b", .struct "Box_int")] .int [.ret (.mem (.var "b") "value")])]

/-- **C90 is violated**: the instances of an opaque generic struct are open to all. -/
theorem generic_violated :
    accepts ⟨[], []⟩ generic = true ∧
    Opens (world generic) (start [("b", .struct "Box_int")]) [.ret (.mem (.var "b") "value")] "Box_int" ∧
    Foreign (world generic) "main.zc" "Box_int" := by
  refine ⟨by decide, ⟨_, _, .here _ _ _, Or.inl ⟨_, .refl _, ?_⟩⟩, ?_⟩
  · show (typ (world generic) (start [("b", .struct "Box_int")]) (.var "b")).bind target = some "Box_int"
    decide
  · exact ⟨⟨"Box_int", true, some "box.zc", [("value", .int)]⟩, by decide, rfl, by decide⟩

/-- An opaque alias of an opaque struct. -/
def aliased : Program :=
  [("user.zc", .struct "User" true [("id", .int)]),
   ("main.zc", .fn "peek" [("u", .alias "Account" "account.zc" (.struct "User"))] .int
      [.ret (.mem (.var "u") "id")])]

/-- **C90 is violated**: through an opaque alias, of any file, the fields of a struct are open. -/
theorem aliased_violated :
    accepts ⟨[], []⟩ aliased = true ∧
    Opens (world aliased) (start [("u", .alias "Account" "account.zc" (.struct "User"))])
      [.ret (.mem (.var "u") "id")] "User" ∧
    Foreign (world aliased) "main.zc" "User" := by
  refine ⟨by decide, ⟨_, _, .here _ _ _, Or.inl ⟨_, .refl _, ?_⟩⟩, ?_⟩
  · show (typ (world aliased) (start [("u", .alias "Account" "account.zc" (.struct "User"))])
      (.var "u")).bind target = some "User"
    decide
  · exact ⟨⟨"User", true, some "user.zc", [("id", .int)]⟩, by decide, rfl, by decide⟩

/-- **C90 is violated** in the other direction: a method that its file offers cannot be called from
another file, `u.id_of()` is refused as a private field; nothing private is opened by the call. -/
theorem method_violated :
    accepts ⟨[], []⟩ (mainWith [.expr (.mcall (.var "u") "id_of" .nil)]) = false ∧
    (∀ Γ n, ¬ opens (world (mainWith [])) Γ n (.mcall (.var "u") "id_of" .nil)) ∧
    accepts ⟨[], []⟩ (users ++ [("user.zc", .fn "f" [("u", .struct "User")] .int
      [.ret (.mcall (.var "u") "id_of" .nil)])]) = true := by
  refine ⟨by decide, fun Γ n h => h, by decide⟩

/-! ## C91: opaque aliases -/

/-- The type seen in file `f`: its own aliases are what they stand for. -/
def bare (f : String) : Ty → Ty
  | .alias n d t => if d = f then bare f t else .alias n d t
  | t => t

/-- An opaque alias of another file, as seen in `f`. -/
def Sealed (f : String) (t : Ty) : Prop := ∃ n d i, t = .alias n d i ∧ d ≠ f

theorem bare_alias {f : String} {t : Ty} {n d : String} {i : Ty} (h : bare f t = .alias n d i) :
    d ≠ f := by
  induction t with
  | alias m e t ih =>
    simp only [bare] at h
    split at h
    · exact ih h
    · cases h; assumption
  | _ => simp [bare] at h

theorem compat_iff (f : String) (a b : Ty) :
    compat f a b = true ↔ ¬ Sealed f (bare f a) ∧ ¬ Sealed f (bare f b) := by
  have base : ∀ t : Ty, (∀ n d i, t ≠ .alias n d i) → ¬ Sealed f (bare f t) := by
    intro t ht
    cases t <;> simp only [bare] <;> try (rintro ⟨n, d, i, h, _⟩; cases h)
    exact absurd rfl (ht _ _ _)
  have right : ∀ a : Ty, (∀ n d i, a ≠ .alias n d i) → ∀ b, compat f a b = true ↔ ¬ Sealed f (bare f b) := by
    intro a ha b
    induction b with
    | alias n d i ih =>
      by_cases e : d = f
      · rw [compat]
        · simp only [e, if_true, bare]; exact ih
        · intro n d i h; exact ha n d i h
      · rw [compat]
        · simp only [e, if_false, bare, Bool.false_eq_true, false_iff]
          exact fun h => h ⟨n, d, i, rfl, e⟩
        · intro n d i h; exact ha n d i h
    | _ =>
      rw [compat.eq_def]
      cases a <;> first
        | exact absurd rfl (ha _ _ _)
        | (simp only [true_iff]; exact base _ (by intro _ _ _ h; cases h))
  induction a with
  | alias n d i ih =>
    rw [compat]
    by_cases e : d = f
    · simp only [e, if_true, bare]; exact ih
    · simp only [e, if_false, bare, Bool.false_eq_true, false_iff]
      exact fun h => h.1 ⟨n, d, i, rfl, e⟩
  | _ =>
    rw [right _ (by intro _ _ _ h; cases h)]
    exact ⟨fun h => ⟨base _ (by intro _ _ _ h; cases h), h⟩, fun h => h.2⟩

/-- What `let`, assignments and arithmetic accept, for all types: those the compiler takes for equal,
and any two that are not, seen from this file, opaque aliases of another one. -/
theorem fits_iff (f : String) (a b : Ty) :
    fits f a b = true ↔ typeEq a b = true ∨ (¬ Sealed f (bare f a) ∧ ¬ Sealed f (bare f b)) := by
  simp only [fits, Bool.or_eq_true, compat_iff]

theorem typeEq_alias {n d : String} {i b : Ty} (h : typeEq (.alias n d i) b = true) :
    b = .unk ∨ ∃ d' i', b = .alias n d' i' := by
  cases b with
  | alias m d' i' =>
    simp [typeEq] at h
    subst h
    exact Or.inr ⟨d', i', rfl⟩
  | unk => exact Or.inl rfl
  | _ => simp [typeEq] at h

theorem typeEq_alias' {n d : String} {i b : Ty} (h : typeEq b (.alias n d i) = true) :
    b = .unk ∨ ∃ d' i', b = .alias n d' i' := by
  cases b with
  | alias m d' i' =>
    simp [typeEq] at h
    subst h
    exact Or.inr ⟨d', i', rfl⟩
  | unk => exact Or.inl rfl
  | _ => simp [typeEq] at h

/-- **C91 (partial).** In an accepted program, a `let` with a type, an assignment or an arithmetic
operation that has an opaque alias of another file on one side has an alias of the same name on the
other: nothing of another type is stored into the alias, and no alias is stored as something else.
Missing, and false (see below): arguments and results, pointers, comparisons, fields of literals. -/
theorem kept_partial {P pre post : Program} {f n : String} {ps : List (String × Ty)} {r : Ty}
    {body : List Stmt} (h : accepts ⟨[], []⟩ P = true) (hP : P = pre ++ (f, .fn n ps r body) :: post)
    (nt : NoOpaqueTemplate P) (pl : AllTypes Plain P)
    (td : Tidy (world (pre ++ [(f, .fn n ps r body)])) (world P) (start ps) body) {a b : Ty}
    (m : Mixes (world P) (start ps) body a b) :
    (∀ k d i, a = .alias k d i → d ≠ f → ∃ d' i', b = .alias k d' i') ∧
    (∀ k d i, b = .alias k d i → d ≠ f → ∃ d' i', a = .alias k d' i') := by
  have hm : (f, Decl.fn n ps r body) ∈ P := by rw [hP]; simp
  have hb := (accepts_iff P _).1 h pre f n ps r body post hP
  have S := same_world (pre ++ [(f, .fn n ps r body)])
    (NoOpaqueTemplate.left (Q := post) (by rw [List.append_assoc]; exact hP ▸ nt))
  have H := holds_world pl hm
  have B := bodyOk pl hm td
  have hat := (body_at S f body _ H B).1 hb
  have T : ∀ {V W Γ e}, Holds Plain W Γ → Ok Plain V W Γ e → ∀ t, typ W Γ e = some t → Plain t :=
    fun H ok t ht => typ_plain H ok ht
  have main : fits f a b = true ∧ Plain a ∧ Plain b := by
    obtain ⟨Δ, s, ha, m⟩ := m
    have HΔ := holds_at T ha H B
    rcases m with ⟨x, e, rfl, ht⟩ | ⟨l, q, hw, hl, hq⟩
    · exact ⟨(hat Δ _ ha).2 x a e b rfl ht, B.lets Δ _ ha x a e rfl, typ_plain HΔ (B.ok Δ _ ha) ht⟩
    · have okb := (B.ok Δ s ha).within hw
      have okl := okb.part (.binL false l q)
      have okr := okb.part (.binR false l q)
      refine ⟨?_, typ_plain HΔ okl hl, typ_plain HΔ okr hq⟩
      have hc := check_within hw (hat Δ s ha).1
      obtain ⟨u, hu⟩ := Option.isSome_iff_exists.1 (check_part (.binL false l q) hc)
      obtain ⟨v, hv⟩ := Option.isSome_iff_exists.1 (check_part (.binR false l q) hc)
      have eu := check_typ S HΔ f l okl u hu
      have ev := check_typ S HΔ f q okr v hv
      rw [hl] at eu; rw [hq] at ev
      subst eu; subst ev
      simp only [check, hu, hv, Option.bind_some] at hc
      cases hf : fits f a b with
      | true => rfl
      | false => simp [hf] at hc
  obtain ⟨hf, pa, pb⟩ := main
  rw [fits_iff] at hf
  constructor
  · rintro k d i rfl hd
    rcases hf with hf | hf
    · rcases typeEq_alias hf with rfl | h
      · exact pb.elim
      · exact h
    · exact absurd ⟨k, d, i, by simp [bare, hd], hd⟩ hf.1
  · rintro k d i rfl hd
    rcases hf with hf | hf
    · rcases typeEq_alias' hf with rfl | h
      · exact pa.elim
      · exact h
    · exact absurd ⟨k, d, i, by simp [bare, hd], hd⟩ hf.2

/-- **C91.** In its own file an alias converts to what it stands for and back, in `let`, assignments
and arithmetic, however many aliases of that file are stacked. -/
theorem inside (f n : String) (t : Ty) (h : ¬ Sealed f (bare f t)) :
    fits f (.alias n f t) t = true ∧ fits f t (.alias n f t) = true := by
  have : ¬ Sealed f (bare f (.alias n f t)) := by simpa [bare] using h
  exact ⟨(fits_iff _ _ _).2 (Or.inr ⟨this, h⟩), (fits_iff _ _ _).2 (Or.inr ⟨h, this⟩)⟩

/-- The `Handle` of the README. -/
def Handle : Ty := .alias "Handle" "library.zc" .int

/-- The library of the README, and a main function. -/
def handles (s : List Stmt) : Program :=
  [("library.zc", .fn "make_handle" [("v", .int)] Handle [.bind "h" (some Handle) (.var "v"), .ret (.var "h")]),
   ("library.zc", .fn "get_val" [("h", Handle)] .int [.ret (.bin false (.var "h") .num)]),
   ("main.zc", .fn "main" [] .int (.bind "h" (some Handle) (.call "make_handle" (.cons "" .num .nil)) :: s))]

/-- The examples of the README: accepted, `let i: int = h` and `let h2: Handle = 10` refused, and
likewise the assignments and `h + 1`. -/
theorem handles_demo :
    accepts ⟨[], []⟩ (handles []) = true ∧
    accepts ⟨[], []⟩ (handles [.bind "i" (some .int) (.var "h")]) = false ∧
    accepts ⟨[], []⟩ (handles [.bind "h2" (some Handle) .num]) = false ∧
    accepts ⟨[], []⟩ (handles [.expr (.bin false (.var "h") .num)]) = false ∧
    accepts ⟨[], []⟩ (handles [.bind "k" none (.var "h"), .expr (.bin false (.var "k") (.var "h"))]) = true := by
  decide +kernel

/-- **C91 is violated**: a number is accepted where a function takes a `Handle`, and a `Handle` is
returned as a number: arguments and results are not compared. -/
theorem argument_violated :
    accepts ⟨[], []⟩ (handles [.expr (.call "get_val" (.cons "" .num .nil)), .ret (.var "h")]) = true ∧
    typ (world (handles [])) [] .num = some .int := by
  decide +kernel

/-- **C91 is violated**: `let p: int* = &h; *p = 10;` is accepted in another file; the alias is
overwritten as the number it is. -/
theorem pointer_violated :
    accepts ⟨[], []⟩ (handles [.bind "p" (some (.ptr .int)) (.addr (.var "h")),
      .expr (.bin false (.deref (.var "p")) .num)]) = true := by
  decide +kernel

/-- **C91 is violated** in its own file too: `h == 10`, comparing a `Handle` with a number, is refused
although `h + 10` is not. -/
theorem compare_violated :
    accepts ⟨[], []⟩ [("library.zc", .fn "f" [("h", Handle)] .int [.ret (.bin true (.var "h") .num)])] = false ∧
    accepts ⟨[], []⟩ [("library.zc", .fn "f" [("h", Handle)] .int [.ret (.bin false (.var "h") .num)])] = true := by
  decide +kernel

/-- **C91 is violated**: an alias named by one capital letter is taken for a type parameter, and may
be compared with anything anywhere. -/
theorem letter_violated :
    accepts ⟨[], []⟩ [("main.zc", .fn "f" [("h", .alias "H" "library.zc" .int)] .int
      [.ret (.bin true (.var "h") .num)])] = true ∧
    accepts ⟨[], []⟩ [("main.zc", .fn "f" [("h", Handle)] .int
      [.ret (.bin true (.var "h") .num)])] = false := by
  decide +kernel

/-- **C91 is violated**: two aliases of the same name from two files, of different types, are taken
for one, in any file. -/
theorem homonym_violated :
    ∀ f, fits f (.alias "Id" "a.zc" .int) (.alias "Id" "b.zc" .str) = true := by
  intro f; simp [fits, typeEq]

end Verif.Opaque
