import Verif.Traits.Model

/-! # Lemmas about names and texts -/

namespace Verif.Traits

open Spec

/-! ## Lists -/

theorem find_unique {α : Type} {p : α → Bool} {x : α} : ∀ {l : List α}, x ∈ l → p x = true →
    (∀ y ∈ l, p y = true → y = x) → l.find? p = some x
  | [], h, _, _ => by cases h
  | y :: l, h, hx, hu => by
    by_cases hy : p y = true
    · rw [List.find?_cons_of_pos hy, hu y (by simp) hy]
    · rw [List.find?_cons_of_neg hy]
      rcases List.mem_cons.1 h with rfl | h
      · exact absurd hx hy
      · exact find_unique h hx fun z hz => hu z (by simp [hz])

theorem find_none {α : Type} {p : α → Bool} {l : List α} (h : ∀ y ∈ l, p y = false) :
    l.find? p = none := by
  rw [List.find?_eq_none]
  intro y hy
  simp [h y hy]

theorem nodup_key {α β : Type} (f : α → β) : ∀ {l : List α}, (l.map f).Nodup → ∀ x ∈ l, ∀ y ∈ l,
    f x = f y → x = y
  | [], _, x, hx, _, _, _ => by cases hx
  | a :: l, hn, x, hx, y, hy, he => by
    simp only [List.map_cons, List.nodup_cons, List.mem_map, not_exists, not_and] at hn
    rcases List.mem_cons.1 hx with h1 | h1 <;> rcases List.mem_cons.1 hy with h2 | h2
    · rw [h1, h2]
    · exact absurd (h1 ▸ he.symm) (hn.1 y h2)
    · exact absurd (h2 ▸ he) (hn.1 x h1)
    · exact nodup_key f hn.2 x h1 y h2 he

theorem nodup_map_on {α β : Type} (f : α → β) : ∀ {l : List α}, l.Nodup →
    (∀ x ∈ l, ∀ y ∈ l, f x = f y → x = y) → (l.map f).Nodup
  | [], _, _ => List.nodup_nil
  | a :: l, hn, hi => by
    simp only [List.nodup_cons] at hn
    simp only [List.map_cons, List.nodup_cons, List.mem_map, not_exists, not_and]
    refine ⟨fun x hx he => ?_, nodup_map_on f hn.2 fun x hx y hy => hi x (by simp [hx]) y (by simp [hy])⟩
    exact hn.1 (hi x (by simp [hx]) a (by simp) he ▸ hx)

theorem nodup_flatMap_on {α β : Type} (f : α → List β) : ∀ {l : List α},
    (∀ x ∈ l, (f x).Nodup) → l.Nodup → (∀ x ∈ l, ∀ y ∈ l, ∀ b, b ∈ f x → b ∈ f y → x = y) →
    (l.flatMap f).Nodup
  | [], _, _, _ => List.nodup_nil
  | a :: l, h1, hn, hi => by
    simp only [List.nodup_cons] at hn
    rw [List.flatMap_cons, List.nodup_append]
    refine ⟨h1 a (by simp), nodup_flatMap_on f (fun x hx => h1 x (by simp [hx])) hn.2
      (fun x hx y hy => hi x (by simp [hx]) y (by simp [hy])), ?_⟩
    rintro b hb c hc rfl
    obtain ⟨y, hy, hby⟩ := List.mem_flatMap.1 hc
    exact hn.1 (hi a (by simp) y (by simp [hy]) b hb hby ▸ hy)

/-! ## Names -/

theorem take_clean {s : Text} (h : '_' ∉ s) (r : Text) :
    (s ++ '_' :: r).takeWhile (· ≠ '_') = s ∧ (s ++ '_' :: r).dropWhile (· ≠ '_') = '_' :: r := by
  induction s with
  | nil => simp
  | cons c s ih =>
    simp only [List.mem_cons, not_or] at h
    have hc : c ≠ '_' := fun e => h.1 e.symm
    obtain ⟨h1, h2⟩ := ih h.2
    simp only [List.cons_append, List.takeWhile_cons, List.dropWhile_cons, hc, ne_eq, not_false_eq_true,
      decide_true, if_true]
    exact ⟨by rw [h1], h2⟩

theorem take_whole {s : Text} (h : '_' ∉ s) :
    s.takeWhile (· ≠ '_') = s ∧ s.dropWhile (· ≠ '_') = [] := by
  induction s with
  | nil => simp
  | cons c s ih =>
    simp only [List.mem_cons, not_or] at h
    have hc : c ≠ '_' := fun e => h.1 e.symm
    obtain ⟨h1, h2⟩ := ih h.2
    simp only [List.takeWhile_cons, List.dropWhile_cons, hc, ne_eq, not_false_eq_true,
      decide_true, if_true]
    exact ⟨by rw [h1], h2⟩

/-- The name up to the first `_`. -/
def headOf : Decl → Text
  | .strct s => s
  | .obj t => t
  | .vtype t => t
  | .table s _ => s
  | .wrap t _ => t
  | .tmeth s _ _ => s
  | .meth s _ => s
  | .plain f => f

/-- The rest. -/
def restOf : Decl → Text
  | .strct _ => []
  | .obj _ => []
  | .vtype _ => '_' :: "VTable".toList
  | .table _ t => '_' :: (t ++ "_VTable".toList)
  | .wrap _ m => '_' :: '_' :: m
  | .tmeth _ t m => '_' :: '_' :: (t ++ '_' :: m)
  | .meth _ m => '_' :: '_' :: m
  | .plain _ => []

theorem cname_split (d : Decl) (hp : ∀ f, d ≠ .plain f) (h : '_' ∉ headOf d) :
    (cname d).takeWhile (· ≠ '_') = headOf d ∧ (cname d).dropWhile (· ≠ '_') = restOf d := by
  have hv : "_VTable".toList = '_' :: "VTable".toList := by decide
  cases d with
  | strct s => exact take_whole h
  | obj t => exact take_whole h
  | vtype t =>
    simp only [cname, headOf, restOf, hv] at h ⊢
    exact take_clean h _
  | table s t =>
    simp only [cname, headOf, restOf, List.append_assoc, List.cons_append] at h ⊢
    exact take_clean h _
  | wrap t m => exact take_clean h _
  | tmeth s t m =>
    simp only [cname, headOf, restOf, List.append_assoc, List.cons_append] at h ⊢
    exact take_clean h _
  | meth s m => exact take_clean h _
  | plain f => exact absurd rfl (hp f)

/-- Declarations whose names are made of structs, traits and methods of the program. -/
inductive Made (P : Prog) : Decl → Prop where
  | strct {s} : s ∈ P.structs → Made P (.strct s)
  | obj {t} : t ∈ P.traits.map (·.name) → Made P (.obj t)
  | vtype {t} : t ∈ P.traits.map (·.name) → Made P (.vtype t)
  | table {s t} : s ∈ P.structs → t ∈ P.traits.map (·.name) → Made P (.table s t)
  | wrap {t m} : t ∈ P.traits.map (·.name) → Made P (.wrap t m)
  | tmeth {s t m} : s ∈ P.structs → t ∈ P.traits.map (·.name) → Made P (.tmeth s t m)
  | meth {s m} : s ∈ P.structs → Made P (.meth s m)

/-- No method of a struct is called like the trait and method of the other. -/
def Apart : Decl → Decl → Prop
  | .tmeth _ t m, .meth _ n => n ≠ t ++ '_' :: m
  | .meth _ n, .tmeth _ t m => n ≠ t ++ '_' :: m
  | _, _ => True

theorem clean_ne {t r : Text} (h : Clean t) : t ++ r ≠ '_' :: x := by
  obtain ⟨h1, h2⟩ := h
  cases t with
  | nil => exact absurd rfl h1
  | cons c t =>
    intro he
    simp only [List.cons_append, List.cons.injEq] at he
    exact h2 (by simp [he.1])

theorem clean_split {t u m n : Text} (ht : '_' ∉ t) (hu : '_' ∉ u)
    (h : t ++ '_' :: m = u ++ '_' :: n) : t = u ∧ m = n := by
  have h1 := take_clean ht m
  have h2 := take_clean hu n
  rw [h] at h1
  have e1 : t = u := h1.1.symm.trans h2.1
  have e2 : '_' :: m = '_' :: n := h1.2.symm.trans h2.2
  exact ⟨e1, (List.cons.inj e2).2⟩

theorem made_inj {P : Prog} (hg : Good P) {d e : Decl} (hd : Made P d) (he : Made P e)
    (ha : Apart d e) (h : cname d = cname e) : d = e := by
  have hcl : ∀ n, n ∈ P.structs ∨ n ∈ P.traits.map (·.name) → '_' ∉ n := fun n hn => (hg.clean n hn).2
  have hsplit : headOf d = headOf e ∧ restOf d = restOf e := by
    have h1 : '_' ∉ headOf d ∧ ∀ f, d ≠ .plain f := by
      cases hd <;> refine ⟨?_, fun f => by simp⟩ <;> simp only [headOf] <;> apply hcl <;> first | (left; assumption) | (right; assumption)
    have h2 : '_' ∉ headOf e ∧ ∀ f, e ≠ .plain f := by
      cases he <;> refine ⟨?_, fun f => by simp⟩ <;> simp only [headOf] <;> apply hcl <;> first | (left; assumption) | (right; assumption)
    have s1 := cname_split d h1.2 h1.1
    have s2 := cname_split e h2.2 h2.1
    rw [h] at s1
    exact ⟨s1.1.symm.trans s2.1, s1.2.symm.trans s2.2⟩
  obtain ⟨hh, hr⟩ := hsplit
  have cross : ∀ n, n ∈ P.structs → n ∈ P.traits.map (·.name) → False := fun n h1 h2 =>
    hg.apart n h1 h2
  have hV : "VTable".toList = 'V' :: "Table".toList := by decide
  cases hd <;> cases he <;> simp only [headOf, restOf, hV] at hh hr <;> try subst hh
  all_goals first
    | rfl
    | (exfalso; apply cross <;> assumption)
    | (cases hr; done)
    | skip
  · -- table, table
    simp only [List.cons.injEq, true_and] at hr
    rw [List.append_cancel_right hr]
  · -- table, tmeth
    simp only [List.cons.injEq, true_and] at hr
    exact absurd hr (clean_ne (hg.clean _ (.inr ‹_›)))
  · -- table, meth
    simp only [List.cons.injEq, true_and] at hr
    exact absurd hr (clean_ne (hg.clean _ (.inr ‹_›)))
  · -- wrap
    simp only [List.cons.injEq, true_and] at hr
    rw [hr]
  · -- tmeth, table
    simp only [List.cons.injEq, true_and] at hr
    exact absurd hr.symm (clean_ne (hg.clean _ (.inr ‹_›)))
  · -- tmeth, tmeth
    simp only [List.cons.injEq, true_and] at hr
    obtain ⟨rfl, rfl⟩ := clean_split (hcl _ (.inr ‹_›)) (hcl _ (.inr ‹_›)) hr
    rfl
  · simp only [List.cons.injEq, true_and] at hr
    exact absurd hr.symm ha
  · simp only [List.cons.injEq, true_and] at hr
    exact absurd hr.symm (clean_ne (hg.clean _ (.inr ‹_›)))
  · simp only [List.cons.injEq, true_and] at hr
    exact absurd hr ha
  · simp only [List.cons.injEq, true_and] at hr
    rw [hr]

/-! ## Texts of arguments -/

theorem pieces_plain : ∀ {a : Text}, ',' ∉ a → pieces a = [a]
  | [], _ => rfl
  | c :: r, h => by
    simp only [List.mem_cons, not_or] at h
    have hc : c ≠ ',' := fun e => h.1 e.symm
    rw [pieces.eq_def]
    split
    · rename_i he; cases he
    · rename_i he
      simp only [List.cons.injEq] at he
      exact absurd he.1 hc
    · rename_i he
      simp only [List.cons.injEq] at he
      obtain ⟨rfl, rfl⟩ := he
      rw [pieces_plain h.2]

theorem pieces_comma : ∀ {a : Text} (r : Text), ',' ∉ a → pieces (a ++ ',' :: r) = a :: pieces r
  | [], _, _ => rfl
  | c :: a, r, h => by
    simp only [List.mem_cons, not_or] at h
    have hc : c ≠ ',' := fun e => h.1 e.symm
    rw [List.cons_append, pieces.eq_def]
    split
    · rename_i he; cases he
    · rename_i he
      simp only [List.cons.injEq] at he
      exact absurd he.1 hc
    · rename_i he
      simp only [List.cons.injEq] at he
      obtain ⟨rfl, rfl⟩ := he
      rw [pieces_comma r h.2]

theorem pieces_joined : ∀ (b a : Text) (r : List Text), ',' ∉ b → (∀ x ∈ a :: r, ',' ∉ x) →
    pieces (b ++ joined (a :: r)) = (b ++ a) :: r.map (' ' :: ·)
  | b, a, [], hb, h => by
    simp only [joined, List.map_nil]
    exact pieces_plain (by
      simp only [List.mem_append, not_or]
      exact ⟨hb, h a (by simp)⟩)
  | b, a, x :: r, hb, h => by
    have ha : ',' ∉ b ++ a := by
      simp only [List.mem_append, not_or]
      exact ⟨hb, h a (by simp)⟩
    rw [joined, ← List.append_assoc, pieces_comma _ ha]
    · have := pieces_joined [' '] x r (by simp) fun y hy => h y (by simp only [List.mem_cons] at hy ⊢; exact .inr hy)
      simp only [List.singleton_append] at this
      rw [this]
      rfl
    · simp

theorem ident_no {n : Text} (h : Ident n) : ' ' ∉ n ∧ '*' ∉ n ∧ ',' ∉ n ∧ '-' ∉ n :=
  ⟨fun hc => (h.2 _ hc).1 rfl, fun hc => (h.2 _ hc).2.1 rfl, fun hc => (h.2 _ hc).2.2.1 rfl,
    fun hc => (h.2 _ hc).2.2.2 rfl⟩

theorem lastWord_ident : ∀ {n : Text}, ' ' ∉ n → '*' ∉ n → lastWord n = n
  | [], _, _ => rfl
  | c :: r, h1, h2 => by
    simp only [List.mem_cons, not_or] at h1 h2
    rw [lastWord, if_neg (by simp [h1.2, h2.2]), if_neg (by
      rintro (rfl | rfl)
      · exact h1.1 rfl
      · exact h2.1 rfl)]

theorem lastWord_after : ∀ (x : Text) {n : Text}, ' ' ∉ n → '*' ∉ n → lastWord (x ++ ' ' :: n) = n
  | [], n, h1, h2 => by
    rw [List.nil_append, lastWord, if_neg (by simp [h1, h2]), if_pos (.inl rfl)]
  | c :: x, n, h1, h2 => by
    rw [List.cons_append, lastWord, if_pos (by simp)]
    exact lastWord_after x h1 h2

theorem dropped_word (x : Text) {n : Text} (h : Ident n) :
    lastWord ((x ++ ' ' :: n).dropWhile (· = ' ')) = n := by
  obtain ⟨h1, h2, _, _⟩ := ident_no h
  induction x with
  | nil =>
    obtain ⟨hn, _⟩ := h
    cases n with
    | nil => exact absurd rfl hn
    | cons c r =>
      have hc : c ≠ ' ' := fun e => h1 (by simp [e])
      simp only [List.nil_append, List.dropWhile_cons, decide_true, if_true, hc, decide_false,
        Bool.false_eq_true, if_false]
      exact lastWord_ident h1 h2
  | cons c x ih =>
    by_cases hc : c = ' '
    · simp only [List.cons_append, List.dropWhile_cons, hc, decide_true, if_true]
      exact ih
    · simp only [List.cons_append, List.dropWhile_cons, hc, decide_false, Bool.false_eq_true, if_false]
      exact lastWord_after (c :: x) h1 h2

theorem plain_comma {structs : List Text} : ∀ {t : Ty}, Plain structs t → ',' ∉ t.text "Self".toList
  | .prim t, h => h
  | .named _, h => h.elim
  | .fnPtr _ _, h => h.elim
  | .selfT, h => h.elim
  | .ptr (.named n), h => by
    simp only [Ty.text, List.mem_append, List.mem_singleton, not_or]
    exact ⟨h.2, by decide⟩
  | .ptr (.prim t), h => by
    simp only [Ty.text, List.mem_append, List.mem_singleton, not_or]
    exact ⟨h, by decide⟩
  | .ptr (.fnPtr _ _), h => h.elim
  | .ptr .selfT, h => h.elim
  | .ptr (.ptr t), h => by
    have := plain_comma (t := .ptr t) h
    rw [Ty.text]
    simp only [List.mem_append, List.mem_singleton, not_or]
    exact ⟨this, by decide⟩

theorem param_text {structs : List Text} {p : Param} (h : Plain structs p.ty) :
    p.text = p.ty.text "Self".toList ++ ' ' :: p.name := by
  obtain ⟨n, t⟩ := p
  cases t with
  | fnPtr _ _ => exact h.elim
  | _ => rfl

theorem plain_self {structs : List Text} (a b : Text) : ∀ {t : Ty}, Plain structs t → t.text a = t.text b
  | .prim _, _ => rfl
  | .named _, h => h.elim
  | .fnPtr _ _, h => h.elim
  | .selfT, h => h.elim
  | .ptr (.named _), _ => rfl
  | .ptr (.prim _), _ => rfl
  | .ptr (.fnPtr _ _), h => h.elim
  | .ptr .selfT, h => h.elim
  | .ptr (.ptr t), h => by
    have := plain_self a b (t := .ptr t) h
    show Ty.text a t.ptr ++ ['*'] = Ty.text b t.ptr ++ ['*']
    rw [this]

theorem plain_names {structs : List Text} : ∀ {t : Ty}, Plain structs t → (∀ n ∈ t.names, n ∈ structs) ∧
    t.value = none ∧ t ≠ .selfT
  | .prim _, _ => ⟨by simp [Ty.names], rfl, by simp⟩
  | .named _, h => h.elim
  | .fnPtr _ _, h => h.elim
  | .selfT, h => h.elim
  | .ptr (.named _), h => ⟨by simp only [Ty.names, List.mem_singleton]; rintro _ rfl; exact h.1, rfl, by simp⟩
  | .ptr (.prim _), _ => ⟨by simp [Ty.names], rfl, by simp⟩
  | .ptr (.fnPtr _ _), h => h.elim
  | .ptr .selfT, h => h.elim
  | .ptr (.ptr t), h => by
    have := plain_names (t := .ptr t) h
    exact ⟨this.1, rfl, by simp⟩

theorem args_eq {structs : List Text} {s : Sig} (h : GoodSig structs s) :
    s.args = joined ("void* self".toList :: s.params.map Param.text) := by
  unfold Sig.args
  rw [h.self]
  rfl

theorem occurs_append (pat : Text) : ∀ a b : Text, occurs pat (a ++ (pat ++ b)) = true
  | [], b => by
    cases pat with
    | nil => cases b <;> rfl
    | cons c p =>
      rw [List.nil_append, List.cons_append, occurs]
      simp only [Bool.or_eq_true]
      left
      rw [List.isPrefixOf_iff_prefix]
      exact ⟨b, rfl⟩
  | c :: a, b => by
    rw [List.cons_append, occurs, occurs_append pat a b, Bool.or_true]

theorem joined_cons (a : Text) (r : List Text) : ∃ b, joined (a :: r) = a ++ b := by
  cases r with
  | nil => exact ⟨[], by simp [joined]⟩
  | cons x r => exact ⟨_, rfl⟩

theorem has_self {structs : List Text} {s : Sig} (h : GoodSig structs s) : s.hasSelf = true := by
  unfold Sig.hasSelf
  rw [args_eq h]
  obtain ⟨b, hb⟩ := joined_cons "void* self".toList (s.params.map Param.text)
  rw [hb]
  exact occurs_append "self".toList "void* ".toList b

theorem extract_eq {structs : List Text} {s : Sig} (h : GoodSig structs s) :
    extractArgs s.args = joined ("self".toList :: s.params.map (·.name)) := by
  have hp : ∀ x ∈ "void* self".toList :: s.params.map Param.text, ',' ∉ x := by
    intro x hx
    rcases List.mem_cons.1 hx with rfl | hx
    · decide
    · obtain ⟨p, hp, rfl⟩ := List.mem_map.1 hx
      rw [param_text (h.types p hp)]
      simp only [List.mem_append, List.mem_cons, not_or]
      exact ⟨plain_comma (h.types p hp), by decide, (ident_no (h.idents p hp)).2.2.1⟩
  have e := pieces_joined [] "void* self".toList (s.params.map Param.text) (by simp) hp
  simp only [List.nil_append] at e
  unfold extractArgs tokens
  rw [args_eq h, e, List.filter_eq_self.2 (by
    intro x hx
    rcases List.mem_cons.1 hx with rfl | hx
    · decide
    · obtain ⟨y, _, rfl⟩ := List.mem_map.1 hx
      rfl)]
  congr 1
  rw [List.map_cons]
  congr 1
  rw [List.map_map, List.map_map]
  apply List.map_congr_left
  intro p hp
  simp only [Function.comp_apply]
  rw [param_text (h.types p hp), ← List.cons_append]
  exact dropped_word _ (h.idents p hp)

theorem afterComma_plain : ∀ {a : Text}, ',' ∉ a → afterComma a = none
  | [], _ => rfl
  | c :: r, h => by
    simp only [List.mem_cons, not_or] at h
    have hc : c ≠ ',' := fun e => h.1 e.symm
    rw [afterComma.eq_def]
    split
    · rename_i he; cases he
    · rename_i he
      simp only [List.cons.injEq] at he
      exact absurd he.1 hc
    · rename_i he
      simp only [List.cons.injEq] at he
      obtain ⟨rfl, rfl⟩ := he
      exact afterComma_plain h.2

theorem afterComma_comma : ∀ {a : Text} (r : Text), ',' ∉ a → afterComma (a ++ ',' :: r) = some r
  | [], _, _ => rfl
  | c :: a, r, h => by
    simp only [List.mem_cons, not_or] at h
    have hc : c ≠ ',' := fun e => h.1 e.symm
    rw [List.cons_append, afterComma.eq_def]
    split
    · rename_i he; cases he
    · rename_i he
      simp only [List.cons.injEq] at he
      exact absurd he.1 hc
    · rename_i he
      simp only [List.cons.injEq] at he
      obtain ⟨rfl, rfl⟩ := he
      exact afterComma_comma r h.2

theorem trim_blank (a : Text) : trim (' ' :: a) = trim a := by
  simp [trim]

theorem drop_ident {a : Text} (h : ' ' ∉ a) : a.dropWhile (· = ' ') = a := by
  cases a with
  | nil => rfl
  | cons c a =>
    have : c ≠ ' ' := fun e => h (by simp [e])
    simp [this]

theorem trim_ident {a : Text} (h : ' ' ∉ a) : trim a = a := by
  unfold trim
  rw [drop_ident h, drop_ident (by simpa using h), List.reverse_reverse]

theorem passed_eq {structs : List Text} {s : Sig} (h : GoodSig structs s) :
    s.passed = "self->self".toList :: s.params.map (·.name) := by
  have hn : ∀ x ∈ s.params.map (·.name), Ident x := by
    intro x hx
    obtain ⟨p, hp, rfl⟩ := List.mem_map.1 hx
    exact h.idents p hp
  unfold Sig.passed Sig.callText
  rw [has_self h, if_pos rfl, extract_eq h]
  generalize s.params.map (·.name) = ns at hn
  cases ns with
  | nil => decide
  | cons n ns =>
    have hs : ',' ∉ "self".toList := by decide
    have e : joined ("self".toList :: n :: ns) = "self".toList ++ ',' :: (' ' :: joined (n :: ns)) := rfl
    rw [e, afterComma_comma _ hs]
    simp only
    rw [pieces_comma _ (by decide)]
    have := pieces_joined [' ', ' '] n ns (by decide) fun x hx => (ident_no (hn x hx)).2.2.1
    simp only [List.cons_append, List.nil_append] at this
    rw [this]
    simp only [List.map_cons, List.map_map]
    rw [trim_blank, trim_blank, trim_ident (ident_no (hn n (by simp))).1]
    congr 2
    rw [show ns = ns.map id from (List.map_id _).symm, List.map_map]
    apply List.map_congr_left
    intro x hx
    simp only [Function.comp_apply, id]
    rw [trim_blank, trim_ident (ident_no (hn x (by simp [hx]))).1]

theorem lookup_append {n : Text} : ∀ (pre r : List (Text × Int)), pre.lookup n = none →
    (pre ++ r).lookup n = r.lookup n
  | [], _, _ => rfl
  | (k, v) :: pre, r, h => by
    simp only [List.lookup, List.cons_append] at h ⊢
    split at h
    · cases h
    · exact lookup_append pre r h

theorem readArgs_zip : ∀ (ns : List Text) (vs : List Int) (pre : List (Text × Int)), ns.Nodup →
    (∀ n ∈ ns, pre.lookup n = none) → ns.length = vs.length →
    readArgs (pre ++ ns.zip vs) ns = some vs
  | [], [], _, _, _, _ => rfl
  | [], _ :: _, _, _, _, h => by simp at h
  | _ :: _, [], _, _, _, h => by simp at h
  | n :: ns, v :: vs, pre, hn, hp, hl => by
    simp only [List.nodup_cons] at hn
    have ih := readArgs_zip ns vs (pre ++ [(n, v)]) hn.2 (by
      intro x hx
      rw [lookup_append _ _ (hp x (by simp [hx]))]
      have : (x == n) = false := by
        rw [beq_eq_false_iff_ne]
        rintro rfl
        exact hn.1 hx
      simp [List.lookup, this]) (by simpa using hl)
    rw [List.append_assoc, List.singleton_append] at ih
    rw [List.zip_cons_cons, readArgs, ih, lookup_append _ _ (hp n (by simp))]
    simp [List.lookup]

theorem read_passed {structs : List Text} {s : Sig} (h : GoodSig structs s) (self : Int) (vs : List Int)
    (hl : s.params.length = vs.length) :
    readArgs (s.env self vs) s.passed = some (self :: vs) := by
  have hk : ∀ n ∈ s.params.map (·.name), (n == "self->self".toList) = false := by
    intro n hn
    obtain ⟨p, hp, rfl⟩ := List.mem_map.1 hn
    rw [beq_eq_false_iff_ne]
    intro e
    exact (ident_no (h.idents p hp)).2.2.2 (e ▸ by decide)
  rw [passed_eq h, Sig.env, readArgs]
  have := readArgs_zip (s.params.map (·.name)) vs [("self->self".toList, self)] h.distinct (by
    intro n hn
    simp only [List.lookup, hk n hn]) (by simpa using hl)
  rw [List.singleton_append] at this
  rw [this]
  simp [List.lookup]

/-! ## Declarations -/

theorem decls_made {P : Prog} (hg : Good P) {d : Decl} (h : d ∈ decls P) :
    (Made P d ∧ (∀ s t m, d = .tmeth s t m → ∃ x ∈ P.traits, x.name = t ∧ m ∈ x.methods.map (·.name)) ∧
      ∀ s m, d = .meth s m → (s, m) ∈ P.inherent) ∨ ∃ f ∈ P.plain, d = .plain f := by
  simp only [decls, List.mem_append, List.mem_map, List.mem_flatMap] at h
  rcases h with (((⟨s, hs, rfl⟩ | ⟨t, ht, h⟩) | ⟨i, hi, h⟩) | ⟨p, hp, rfl⟩) | ⟨f, hf, rfl⟩
  · exact .inl ⟨.strct hs, by simp, by simp⟩
  · have hm : t.name ∈ P.traits.map (·.name) := List.mem_map.2 ⟨t, ht, rfl⟩
    simp only [List.mem_cons, List.mem_map] at h
    rcases h with rfl | rfl | ⟨m, _, rfl⟩
    · exact .inl ⟨.obj hm, by simp, by simp⟩
    · exact .inl ⟨.vtype hm, by simp, by simp⟩
    · exact .inl ⟨.wrap hm, by simp, by simp⟩
  · obtain ⟨t, ht, hn, hm, _⟩ := hg.complete i hi
    have hm' : i.trait ∈ P.traits.map (·.name) := List.mem_map.2 ⟨t, ht, hn⟩
    rcases h with h | ⟨m, hmm, rfl⟩
    · split at h
      · cases h
      · simp only [List.mem_singleton] at h
        subst h
        exact .inl ⟨.table (hg.target i hi) hm', by simp, by simp⟩
    · refine .inl ⟨.tmeth (hg.target i hi) hm', ?_, by simp⟩
      intro s t' m' he
      simp only [Decl.tmeth.injEq] at he
      obtain ⟨_, rfl, rfl⟩ := he
      exact ⟨t, ht, hn, List.mem_map.2 ⟨m, (hm m).1 hmm, rfl⟩⟩
  · refine .inl ⟨.meth (hg.inherent.2 p hp).1, by simp, ?_⟩
    intro s m he
    simp only [Decl.meth.injEq] at he
    obtain ⟨rfl, rfl⟩ := he
    exact hp
  · exact .inr ⟨f, hf, rfl⟩

theorem plain_ne {P : Prog} (hg : Good P) {d : Decl} (hd : Made P d) {f : Text} (hf : f ∈ P.plain) :
    cname d ≠ f := by
  obtain ⟨h1, h2, h3, h4⟩ := hg.plain.2 f hf
  intro he
  cases hd with
  | strct h => exact h1 (he ▸ h)
  | obj h => exact h2 (he ▸ h)
  | vtype h => exact h4 _ he.symm
  | table _ _ => exact h4 _ he.symm
  | wrap _ => exact h3 _ _ he.symm
  | tmeth _ _ => exact h3 _ _ (by
    rw [← he]; simp only [cname, List.append_assoc, List.cons_append]; rfl)
  | meth _ => exact h3 _ _ he.symm

theorem decls_inj {P : Prog} (hg : Good P) {d e : Decl} (hd : d ∈ decls P) (he : e ∈ decls P)
    (h : cname d = cname e) : d = e := by
  rcases decls_made hg hd with ⟨d1, d2, d3⟩ | ⟨f, hf, rfl⟩ <;>
    rcases decls_made hg he with ⟨e1, e2, e3⟩ | ⟨g, hf', rfl⟩
  · refine made_inj hg d1 e1 ?_ h
    cases d with
    | tmeth s t m =>
      cases e with
      | meth s' n =>
        obtain ⟨x, hx, rfl, hm⟩ := d2 s t m rfl
        obtain ⟨y, hy, rfl⟩ := List.mem_map.1 hm
        exact (hg.inherent.2 _ (e3 s' n rfl)).2 x hx y hy
      | _ => trivial
    | meth s' n =>
      cases e with
      | tmeth s t m =>
        obtain ⟨x, hx, rfl, hm⟩ := e2 s t m rfl
        obtain ⟨y, hy, rfl⟩ := List.mem_map.1 hm
        exact (hg.inherent.2 _ (d3 s' n rfl)).2 x hx y hy
      | _ => trivial
    | _ => trivial
  · exact absurd h (plain_ne hg d1 hf')
  · exact absurd h.symm (plain_ne hg e1 hf)
  · exact congrArg Decl.plain h

theorem decls_nodup {P : Prog} (hg : Good P) : (decls P).Nodup := by
  have n1 : (P.structs.map Decl.strct).Nodup :=
    nodup_map_on _ hg.structs fun _ _ _ _ h => (Decl.strct.inj h)
  have n2 : (P.traits.flatMap fun t => Decl.obj t.name :: .vtype t.name ::
      t.methods.map fun m => .wrap t.name m.name).Nodup := by
    apply nodup_flatMap_on
    · intro t ht
      simp only [List.nodup_cons, List.mem_cons, List.mem_map, not_or, not_exists, not_and]
      refine ⟨⟨by simp, by simp⟩, by simp, ?_⟩
      have := nodup_map_on (fun n => Decl.wrap t.name n) (hg.methods t ht).1 fun _ _ _ _ h =>
        (Decl.wrap.inj h).2
      rw [List.map_map] at this
      exact this
    · have := hg.traits
      exact List.Pairwise.of_map _ (fun a b h e => h (by rw [e])) this
    · intro x hx y hy b hb hc
      apply nodup_key (·.name) hg.traits x hx y hy
      simp only [List.mem_cons, List.mem_map] at hb hc
      rcases hb with rfl | rfl | ⟨m, _, rfl⟩ <;> rcases hc with hc | hc | ⟨m', _, hc⟩ <;> simp_all
  have n3 : (P.impls.flatMap fun i => (if i.trait = "Copy".toList then [] else [Decl.table i.target i.trait]) ++
      i.methods.map fun m => Decl.tmeth i.target i.trait m.name).Nodup := by
    apply nodup_flatMap_on
    · intro i hi
      obtain ⟨_, _, _, _, hn⟩ := hg.complete i hi
      rw [List.nodup_append]
      refine ⟨by split <;> simp, ?_, ?_⟩
      · have := nodup_map_on (fun n => Decl.tmeth i.target i.trait n) hn fun _ _ _ _ h =>
          (Decl.tmeth.inj h).2.2
        rw [List.map_map] at this
        exact this
      · intro a ha b hb e
        split at ha
        · cases ha
        · simp only [List.mem_singleton] at ha
          obtain ⟨m, _, rfl⟩ := List.mem_map.1 hb
          rw [ha] at e
          cases e
    · exact List.Pairwise.of_map _ (fun a b h e => h (by rw [e])) hg.impls
    · intro x hx y hy b hb hc
      apply nodup_key (fun i : Impl => (i.target, i.trait)) hg.impls x hx y hy
      have key : ∀ i : Impl, b ∈ (if i.trait = "Copy".toList then [] else [Decl.table i.target i.trait]) ++
          (i.methods.map fun m => Decl.tmeth i.target i.trait m.name) →
          b = .table i.target i.trait ∨ ∃ m, b = .tmeth i.target i.trait m := by
        intro i h
        rw [List.mem_append] at h
        rcases h with h | h
        · split at h
          · cases h
          · exact .inl (by simpa using h)
        · obtain ⟨m, _, rfl⟩ := List.mem_map.1 h
          exact .inr ⟨_, rfl⟩
      rcases key x hb with rfl | ⟨m, rfl⟩ <;> rcases key y hc with h | ⟨m', h⟩ <;> simp_all
  have n4 : (P.inherent.map fun p => Decl.meth p.1 p.2).Nodup :=
    nodup_map_on _ hg.inherent.1 fun x _ y _ h => by
      obtain ⟨h1, h2⟩ := Decl.meth.inj h
      exact Prod.ext h1 h2
  have n5 : (P.plain.map Decl.plain).Nodup :=
    nodup_map_on _ hg.plain.1 fun _ _ _ _ h => (Decl.plain.inj h)
  unfold decls
  rw [List.nodup_append, List.nodup_append, List.nodup_append, List.nodup_append]
  have k1 : ∀ d ∈ P.structs.map Decl.strct, ∃ s, d = .strct s := by
    intro d hd; obtain ⟨s, _, rfl⟩ := List.mem_map.1 hd; exact ⟨s, rfl⟩
  have k2 : ∀ d ∈ P.traits.flatMap (fun t => Decl.obj t.name :: .vtype t.name ::
      t.methods.map fun m => .wrap t.name m.name), (∃ t, d = .obj t) ∨ (∃ t, d = .vtype t) ∨ ∃ t m, d = .wrap t m := by
    intro d hd
    obtain ⟨t, _, h⟩ := List.mem_flatMap.1 hd
    simp only [List.mem_cons, List.mem_map] at h
    rcases h with rfl | rfl | ⟨m, _, rfl⟩
    · exact .inl ⟨_, rfl⟩
    · exact .inr (.inl ⟨_, rfl⟩)
    · exact .inr (.inr ⟨_, _, rfl⟩)
  have k3 : ∀ d ∈ P.impls.flatMap (fun i => (if i.trait = "Copy".toList then [] else [Decl.table i.target i.trait]) ++
      i.methods.map fun m => Decl.tmeth i.target i.trait m.name),
      (∃ s t, d = .table s t) ∨ ∃ s t m, d = .tmeth s t m := by
    intro d hd
    obtain ⟨i, _, h⟩ := List.mem_flatMap.1 hd
    rw [List.mem_append] at h
    rcases h with h | h
    · split at h
      · cases h
      · exact .inl ⟨_, _, by simpa using h⟩
    · obtain ⟨m, _, rfl⟩ := List.mem_map.1 h
      exact .inr ⟨_, _, _, rfl⟩
  have k4 : ∀ d ∈ P.inherent.map (fun p => Decl.meth p.1 p.2), ∃ s m, d = .meth s m := by
    intro d hd; obtain ⟨s, _, rfl⟩ := List.mem_map.1 hd; exact ⟨_, _, rfl⟩
  have k5 : ∀ d ∈ P.plain.map Decl.plain, ∃ f, d = .plain f := by
    intro d hd; obtain ⟨s, _, rfl⟩ := List.mem_map.1 hd; exact ⟨s, rfl⟩
  refine ⟨⟨⟨⟨n1, n2, ?_⟩, n3, ?_⟩, n4, ?_⟩, n5, ?_⟩
  · rintro a ha b hb rfl
    obtain ⟨s, rfl⟩ := k1 _ ha
    rcases k2 _ hb with ⟨_, h⟩ | ⟨_, h⟩ | ⟨_, _, h⟩ <;> cases h
  · rintro a ha b hb rfl
    rcases k3 _ hb with ⟨_, _, rfl⟩ | ⟨_, _, _, rfl⟩ <;> rcases List.mem_append.1 ha with ha | ha
    · obtain ⟨_, h⟩ := k1 _ ha; cases h
    · rcases k2 _ ha with ⟨_, h⟩ | ⟨_, h⟩ | ⟨_, _, h⟩ <;> cases h
    · obtain ⟨_, h⟩ := k1 _ ha; cases h
    · rcases k2 _ ha with ⟨_, h⟩ | ⟨_, h⟩ | ⟨_, _, h⟩ <;> cases h
  · rintro a ha b hb rfl
    obtain ⟨_, _, rfl⟩ := k4 _ hb
    rcases List.mem_append.1 ha with ha | ha
    · rcases List.mem_append.1 ha with ha | ha
      · obtain ⟨_, h⟩ := k1 _ ha; cases h
      · rcases k2 _ ha with ⟨_, h⟩ | ⟨_, h⟩ | ⟨_, _, h⟩ <;> cases h
    · rcases k3 _ ha with ⟨_, _, h⟩ | ⟨_, _, _, h⟩ <;> cases h
  · rintro a ha b hb rfl
    obtain ⟨_, rfl⟩ := k5 _ hb
    rcases List.mem_append.1 ha with ha | ha
    · rcases List.mem_append.1 ha with ha | ha
      · rcases List.mem_append.1 ha with ha | ha
        · obtain ⟨_, h⟩ := k1 _ ha; cases h
        · rcases k2 _ ha with ⟨_, h⟩ | ⟨_, h⟩ | ⟨_, _, h⟩ <;> cases h
      · rcases k3 _ ha with ⟨_, _, h⟩ | ⟨_, _, _, h⟩ <;> cases h
    · obtain ⟨_, _, h⟩ := k4 _ ha; cases h

/-! ## Registered functions -/

theorem meth_funcs {P Q : Prog} (hg : Good P) (hq : Part Q P) {s m : Text} (hs : s ∈ P.structs)
    (hm : ∀ t ∈ P.traits, ∀ x ∈ t.methods, m ≠ t.name ++ '_' :: x.name) :
    cname (.meth s m) ∈ funcs Q ↔ (s, m) ∈ Q.inherent := by
  simp only [funcs, List.mem_append, List.mem_flatMap, List.mem_map]
  constructor
  · rintro ((⟨i, hi, x, hx, he⟩ | ⟨p, hp, he⟩) | hp)
    · have hi' := hq.impls i hi
      obtain ⟨t, ht, hn, hmm, _⟩ := hg.complete i hi'
      have := made_inj hg (d := .tmeth i.target i.trait x.name) (e := .meth s m)
        (.tmeth (hg.target i hi') (List.mem_map.2 ⟨t, ht, hn⟩)) (.meth hs)
        (by rw [← hn]; exact hm t ht x ((hmm x).1 hx)) he
      cases this
    · have := made_inj hg (d := .meth p.1 p.2) (e := .meth s m)
        (.meth (hg.inherent.2 p (hq.inherent p hp)).1) (.meth hs) trivial he
      obtain ⟨h1, h2⟩ := Decl.meth.inj this
      rw [← h1, ← h2]
      exact hp
    · exact absurd rfl (plain_ne hg (d := .meth s m) (.meth hs) (hq.plain _ hp))
  · intro h
    exact .inl (.inr ⟨(s, m), h, rfl⟩)

theorem tmeth_funcs {P Q : Prog} (hg : Good P) (hq : Part Q P) {s t m : Text} (hs : s ∈ P.structs)
    (ht : t ∈ P.traits.map (·.name)) (hm : ∀ p ∈ P.inherent, ∀ t ∈ P.traits, p.2 ≠ t.name ++ '_' :: m) :
    cname (.tmeth s t m) ∈ funcs Q ↔
      ∃ i ∈ Q.impls, i.target = s ∧ i.trait = t ∧ m ∈ i.methods.map (·.name) := by
  simp only [funcs, List.mem_append, List.mem_flatMap, List.mem_map]
  constructor
  · rintro ((⟨i, hi, x, hx, he⟩ | ⟨p, hp, he⟩) | hp)
    · have hi' := hq.impls i hi
      obtain ⟨t', ht', hn, hmm, _⟩ := hg.complete i hi'
      have := made_inj hg (d := .tmeth i.target i.trait x.name) (e := .tmeth s t m)
        (.tmeth (hg.target i hi') (List.mem_map.2 ⟨t', ht', hn⟩)) (.tmeth hs ht) trivial he
      obtain ⟨h1, h2, h3⟩ := Decl.tmeth.inj this
      exact ⟨i, hi, h1, h2, x, hx, h3⟩
    · obtain ⟨t', ht', rfl⟩ := List.mem_map.1 ht
      have := made_inj hg (d := .meth p.1 p.2) (e := .tmeth s t'.name m)
        (.meth (hg.inherent.2 p (hq.inherent p hp)).1) (.tmeth hs ht)
        (hm p (hq.inherent p hp) t' ht') he
      cases this
    · exact absurd rfl (plain_ne hg (d := .tmeth s t m) (.tmeth hs ht) (hq.plain _ hp))
  · rintro ⟨i, hi, rfl, rfl, x, hx, rfl⟩
    exact .inl (.inl ⟨i, hi, x, hx, rfl⟩)

end Verif.Traits
