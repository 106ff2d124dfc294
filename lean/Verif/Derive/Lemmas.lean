import Verif.Derive.Model

/-! # Lemmas about derived methods -/

namespace Verif.Derive

open Generics (Name Ty cText txt)
open DeclOrder (Prim)
open Spec

variable {D : Type}

theorem lookup_split {n : Name} : ∀ {P seen before : List (Decl D)} {d : Decl D},
    lookup n seen P = some (before, d) →
    ∃ pre rest, before = seen ++ pre ∧ P = pre ++ d :: rest ∧ d.name = n ∧
      ∀ e ∈ pre, e.name ≠ n
  | [], _, _, _, h => by simp [lookup] at h
  | e :: P, seen, before, d, h => by
    simp only [lookup] at h
    split at h
    · next he =>
      simp only [Option.some.injEq, Prod.mk.injEq] at h
      obtain ⟨rfl, rfl⟩ := h
      exact ⟨[], P, by simp, by simp, he, by simp⟩
    · next he =>
      obtain ⟨pre, rest, rfl, rfl, hn, hp⟩ := lookup_split h
      exact ⟨e :: pre, rest, by simp, by simp, hn, by simp [he]; exact hp⟩

theorem lookup_decl (n : Name) : ∀ (P seen : List (Decl D)),
    (lookup n seen P).map (·.2) = decl P n
  | [], _ => by simp [lookup, decl]
  | e :: P, seen => by
    simp only [lookup, decl, List.find?_cons]
    by_cases he : e.name = n
    · simp [he]
    · simp only [he, if_false, decide_false]
      exact lookup_decl n P _

theorem find_decl (P : List (Decl D)) (n : Name) : find P n = decl P n := lookup_decl n P []

theorem lookup_of_decl {P : List (Decl D)} {n : Name} {d : Decl D} (h : decl P n = some d) :
    ∃ before rest, lookup n [] P = some (before, d) ∧ P = before ++ d :: rest ∧ d.name = n := by
  rw [← find_decl] at h
  unfold find at h
  cases hl : lookup n [] P with
  | none => simp [hl] at h
  | some r =>
    obtain ⟨before, e⟩ := r
    simp only [hl, Option.map_some, Option.some.injEq] at h
    subst h
    obtain ⟨pre, rest, hb, hP, hn, _⟩ := lookup_split hl
    simp only [List.nil_append] at hb
    subst hb
    exact ⟨before, rest, rfl, hP, hn⟩

theorem decl_prefix {before rest : List (Decl D)} {n : Name} {d : Decl D}
    (h : decl before n = some d) : decl (before ++ rest) n = some d := by
  unfold decl at *
  simp [List.find?_append, h]

theorem decl_mem {P : List (Decl D)} {n : Name} {d : Decl D} (h : decl P n = some d) :
    d ∈ P ∧ d.name = n := by
  unfold decl at h
  exact ⟨List.mem_of_find?_eq_some h, by simpa using List.find?_some h⟩

theorem decl_none {P : List (Decl D)} {n : Name} (h : ∀ d ∈ P, d.name ≠ n) : decl P n = none := by
  unfold decl
  rw [List.find?_eq_none]
  intro d hd
  simpa using h d hd

theorem ident_star {n : Name} (h : n.all Generics.isIdent = true) : '*' ∉ n := by
  intro hm
  have := List.all_eq_true.1 h _ hm
  exact absurd this (by decide)

theorem prim_star (p : Prim) : '*' ∉ p.cText.toList := by cases p <;> decide

theorem cText_prim (p : Prim) : cText (.prim p) = p.cText.toList := by simp [cText, txt]
theorem cText_name (n : Name) : cText (.name n) = n := by simp [cText, txt]
theorem cText_ptr (t : Ty) : cText (.ptr t) = cText t ++ ['*'] := by simp [cText, txt]

theorem star_ptr (t : Ty) : '*' ∈ cText (.ptr t) := by simp [cText_ptr]

theorem how_prim {P before : List (Decl D)} (hP : Good P) {rest} (hb : P = before ++ rest)
    (p : Prim) : how before P (.prim p) = if p = .string then .strcmp else .cEq := by
  have hn : decl before (cText (.prim p)) = none := decl_none fun d hd => by
    rw [cText_prim]; exact hP.prim d (by simp [hb, hd]) p
  have hn' : decl P (cText (.prim p)) = none := decl_none fun d hd => by
    rw [cText_prim]; exact hP.prim d hd p
  have hs : isPtr (.prim p) = false := by
    simp only [isPtr, cText_prim, Bool.false_or, decide_eq_false_iff_not]
    exact prim_star p
  unfold how cmpOf
  simp only [hs, Bool.false_eq_true, if_false, find_decl, hn, plainHow, hn', Option.isSome_none,
    and_false]
  rw [cText_prim]
  cases p <;> rfl

theorem how_ptr {P before : List (Decl D)} (t : Ty) :
    how before P (.ptr t) = if isText (.ptr t) then .strcmp else .cEq := by
  have hs : isPtr (.ptr t) = true := by simp [isPtr]
  have h : cText (Ty.ptr t) ≠ "string".toList := fun he => by
    have := star_ptr t
    rw [he] at this
    exact absurd this (by decide)
  unfold how cmpOf
  simp only [hs, if_true, plainHow, star_ptr, not_true_eq_false, false_and, if_false, h, false_or]
  rfl

theorem how_name {P before : List (Decl D)} (hP : Good P) {rest} (hb : P = before ++ rest)
    {n : Name} {d : Decl D} (hd : decl P n = some d) :
    how before P (.name n) = .eqOf n ∨
      (how before P (.name n) = .tags ∧ (decl before n).isSome ∧ ∃ pls, d.body = .enm pls) := by
  obtain ⟨hm, hn⟩ := decl_mem hd
  have hid : '*' ∉ n := ident_star (hn ▸ hP.ident d hm)
  have hs : isPtr (.name n) = false := by simp [isPtr, cText_name, hid]
  have hba : isBasic n = false := hn ▸ hP.basic d hm
  unfold how cmpOf
  simp only [hs, Bool.false_eq_true, if_false, find_decl, cText_name]
  cases hbd : decl before n with
  | none =>
    left
    show plainHow P n = _
    unfold plainHow
    rw [if_pos ⟨hid, by rw [hba]; rfl, by rw [find_decl, hd]; rfl⟩]
  | some e =>
    have : decl P n = some e := hb ▸ decl_prefix hbd
    rw [hd] at this
    injection this with this
    subst this
    cases hbody : d.body with
    | strct fs => left; simp only [hbody]
    | enm pls => exact .inr ⟨by simp only [hbody], rfl, pls, rfl⟩

/-- A name declared without its own comparison, or not an enum that is in `before`, is compared
by calling its `eq`. -/
theorem how_late {P before : List (Decl D)} (hP : Good P) {rest} (hb : P = before ++ rest)
    {n : Name} {d : Decl D} (hd : decl P n = some d)
    (h : decl before n = none ∨ ∃ fs, d.body = .strct fs) :
    how before P (.name n) = .eqOf n := by
  rcases how_name hP hb hd with h' | ⟨_, h1, pls, h2⟩
  · exact h'
  · rcases h with h | ⟨fs, h⟩
    · simp [h] at h1
    · simp [h] at h2

theorem typedAll_nil {P : List (Decl D)} {vs : Vals D} (h : TypedAll P [] vs) : vs = .nil := by
  cases vs with
  | nil => rfl
  | cons => simp [TypedAll] at h

theorem getD_nil {pls : List (List Ty)} (h : ∀ ts ∈ pls, ts = []) (i : Nat) : pls.getD i [] = [] := by
  rw [List.getD_eq_getElem?_getD]
  cases hi : pls[i]? with
  | none => rfl
  | some ts => exact h ts (List.mem_of_getElem? hi)

end Verif.Derive
