import Verif.CHeader.Model

/-! # Lines of C headers: what a line declares -/

namespace Verif.CHeader

open Forth (isspace)
open Spec

/-! ## Characters -/

theorem ident_not_space {c : Char} (h : isIdent c = true) : isspace c = false := by
  simp only [isIdent, isspace, Bool.or_eq_true, Bool.and_eq_true, decide_eq_true_eq, Bool.or_eq_false_iff,
    Bool.and_eq_false_iff, decide_eq_false_iff_not, Char.le_def, UInt32.le_iff_toNat_le] at *
  have e : ∀ d : Char, c = d → c.val.toNat = d.val.toNat := fun d h => by rw [h]
  have a : c ≠ ' ' := by
    rintro rfl
    revert h; decide
  refine ⟨a, ?_⟩
  have : ('\t' : Char).val.toNat = 9 := rfl
  have : ('\r' : Char).val.toNat = 13 := rfl
  have : ('0' : Char).val.toNat = 48 := rfl
  have : ('a' : Char).val.toNat = 97 := rfl
  have : ('A' : Char).val.toNat = 65 := rfl
  rcases h with ((h | h) | h) | h
  · omega
  · omega
  · omega
  · have := e _ h
    have : ('_' : Char).val.toNat = 95 := rfl
    omega

theorem ident_ne {c d : Char} (h : isIdent c = true) (hd : isIdent d = false) : c ≠ d := by
  rintro rfl; rw [h] at hd; cases hd

theorem space_ne {c d : Char} (h : isspace c = true) (hd : isspace d = false) : c ≠ d := by
  rintro rfl; rw [h] at hd; cases hd

theorem space_not_ident {c : Char} (h : isspace c = true) : isIdent c = false := by
  cases e : isIdent c with
  | false => rfl
  | true => rw [ident_not_space e] at h; cases h

theorem skip_blank {b : Str} (h : Blank b) (r : Str) : skip (b ++ r) = skip r := by
  induction b with
  | nil => rfl
  | cons c b ih =>
    have hc := (h c (List.mem_cons_self ..)).1
    show List.dropWhile isspace (c :: (b ++ r)) = _
    rw [List.dropWhile_cons_of_pos hc]
    exact ih fun d hd => h d (List.mem_cons_of_mem _ hd)

theorem skip_cons {c : Char} (h : isspace c = false) (r : Str) : skip (c :: r) = c :: r :=
  List.dropWhile_cons_of_neg (by simp [h])

theorem rev_blank {b : Str} (h : Blank b) : Blank b.reverse := fun c hc => h c (List.mem_reverse.1 hc)

theorem take_name {n : Str} (h : Name n) {c : Char} (hc : isIdent c = false) (r : Str) :
    (n ++ c :: r).takeWhile isIdent = n := by
  obtain ⟨-, h⟩ := h
  induction n with
  | nil => simp [hc]
  | cons d n ih =>
    rw [List.cons_append, List.takeWhile_cons_of_pos (h d (List.mem_cons_self ..)),
      ih fun e he => h e (List.mem_cons_of_mem _ he)]

theorem drop_name {n : Str} (h : Name n) {c : Char} (hc : isIdent c = false) (r : Str) :
    (n ++ c :: r).dropWhile isIdent = c :: r := by
  obtain ⟨-, h⟩ := h
  induction n with
  | nil => simp [hc]
  | cons d n ih =>
    rw [List.cons_append, List.dropWhile_cons_of_pos (h d (List.mem_cons_self ..)),
      ih fun e he => h e (List.mem_cons_of_mem _ he)]

/-- A name and blanks and a character that is neither. -/
theorem take_name_blank {n b : Str} (h : Name n) (hb : Blank b) {c : Char} (hc : isIdent c = false) (r : Str) :
    (n ++ b ++ c :: r).takeWhile isIdent = n := by
  cases b with
  | nil => rw [List.append_nil]; exact take_name h hc r
  | cons d b =>
    rw [List.append_assoc, List.cons_append]
    exact take_name h (space_not_ident (hb d (List.mem_cons_self ..)).1) _

theorem drop_name_blank {n b : Str} (h : Name n) (hb : Blank b) {c : Char} (hc : isIdent c = false) (r : Str) :
    (n ++ b ++ c :: r).dropWhile isIdent = b ++ c :: r := by
  cases b with
  | nil => rw [List.append_nil]; exact drop_name h hc r
  | cons d b =>
    rw [List.append_assoc, List.cons_append]
    exact drop_name h (space_not_ident (hb d (List.mem_cons_self ..)).1) _

/-! ## Words -/

theorem afterWord_take {w s r : Str} (hw : ∀ c ∈ w, isIdent c = true) (h : afterWord w s = some r) :
    s.takeWhile isIdent = w := by
  unfold afterWord at h
  split at h
  · rename_i hc
    obtain ⟨hp, hn⟩ := hc
    clear h
    obtain ⟨t, rfl⟩ := List.isPrefixOf_iff_prefix.1 hp
    clear hp
    rw [List.drop_left] at hn
    cases t with
    | nil =>
      rw [List.append_nil]
      clear hn
      induction w with
      | nil => rfl
      | cons d w ih =>
        rw [List.takeWhile_cons_of_pos (hw d (List.mem_cons_self ..)),
          ih fun e he => hw e (List.mem_cons_of_mem _ he)]
    | cons c t =>
      have hc : isIdent c = false := by simpa using hn
      cases w with
      | nil => simp [hc]
      | cons d w => exact take_name ⟨by simp, hw⟩ hc t
  · cases h

theorem afterWord_self {w : Str} {c : Char} (hc : isIdent c = false) (r : Str) :
    afterWord w (w ++ c :: r) = some (c :: r) := by
  unfold afterWord
  rw [if_pos]
  · rw [List.drop_left]
  · rw [List.drop_left]
    refine ⟨List.isPrefixOf_iff_prefix.2 ⟨_, rfl⟩, ?_⟩
    simpa using hc

theorem afterWord_ne {w s : Str} (hw : ∀ c ∈ w, isIdent c = true) (h : s.takeWhile isIdent ≠ w) :
    afterWord w s = none := by
  cases e : afterWord w s with
  | none => rfl
  | some r => exact absurd (afterWord_take hw e) h

theorem leading_ident : ∀ w ∈ leading, ∀ c ∈ w, isIdent c = true := by decide +kernel

theorem typedef_ident : ∀ c ∈ "typedef".toList, isIdent c = true := leading_ident _ (by decide +kernel)
theorem struct_ident : ∀ c ∈ "struct".toList, isIdent c = true := leading_ident _ (by decide +kernel)
theorem union_ident : ∀ c ∈ "union".toList, isIdent c = true := leading_ident _ (by decide +kernel)

theorem kw_ident (u : Bool) : ∀ c ∈ kw u, isIdent c = true := by
  cases u
  · exact struct_ident
  · exact union_ident

theorem skipped_ident {c : Char} (h : isIdent c = true) (r : Str) : skipped (c :: r) = false := by
  simp only [skipped, Bool.or_eq_false_iff, decide_eq_false_iff_not]
  exact ⟨⟨ident_ne h (by decide), ident_ne h (by decide)⟩, ident_ne h (by decide)⟩

/-! ## Prototypes -/

theorem takeWhile_append_neg {p : Char → Bool} {a : Str} (h : ∀ c ∈ a, p c = true) {c : Char}
    (hc : p c = false) (r : Str) : (a ++ c :: r).takeWhile p = a := by
  induction a with
  | nil => simp [hc]
  | cons d a ih =>
    rw [List.cons_append, List.takeWhile_cons_of_pos (h d (List.mem_cons_self ..)),
      ih fun e he => h e (List.mem_cons_of_mem _ he)]

theorem blank_not_mem {b : Str} (h : Blank b) {c : Char} (hc : isspace c = false) : c ∉ b :=
  fun hm => by rw [(h c hm).1] at hc; cases hc

theorem name_not_mem {b : Str} (h : Name b) {c : Char} (hc : isIdent c = false) : c ∉ b :=
  fun hm => by rw [h.2 c hm] at hc; cases hc

theorem takeWhile_prefix_ident {a b : Str} {c : Char} (hl : a.getLast? = some c) (hc : isIdent c = false) :
    (a ++ b).takeWhile isIdent = a.takeWhile isIdent := by
  induction a with
  | nil => cases hl
  | cons d a ih =>
    cases e : isIdent d with
    | false => simp [e]
    | true =>
      rw [List.cons_append, List.takeWhile_cons_of_pos e, List.takeWhile_cons_of_pos e]
      cases a with
      | nil =>
        simp only [List.getLast?_singleton, Option.some.injEq] at hl
        rw [hl, hc] at e; cases e
      | cons x a => rw [ih (by rw [List.getLast?_cons_cons] at hl; exact hl)]

/-- The line without its indentation. -/
theorem skip_proto {p : Proto} (h : p.Ok) :
    skip p.text = p.type ++ p.name ++ p.gap ++ '(' :: p.params ++ ')' :: p.tail ++ ';' :: p.last := by
  obtain ⟨c, r, ht, hc⟩ := h.type
  unfold Proto.text
  simp only [List.append_assoc]
  rw [skip_blank h.indent, ht]
  exact skip_cons (ident_not_space hc) _

theorem first_spec : leading = notFirst := rfl

theorem name_spec : control = notName := rfl

theorem proto_first {p : Proto} (h : p.Ok) (rest : Str) : ∀ w ∈ leading, afterWord w (p.type ++ rest) = none := by
  intro w hw
  obtain ⟨c, hl, hc⟩ := h.ends
  refine afterWord_ne (leading_ident w hw) ?_
  rw [takeWhile_prefix_ident hl hc]
  exact h.first w (by rw [← first_spec]; exact hw)

/-- A prototype on a line is taken for a prototype of its name. -/
theorem funcDecl_proto {p : Proto} (h : p.Ok) : funcDecl p.text = some p.name := by
  obtain ⟨c, r, ht, hc⟩ := h.type
  obtain ⟨e, hl, he⟩ := h.ends
  have es := skip_proto h
  have epre : (p.type ++ p.name ++ p.gap ++ '(' :: p.params ++ ')' :: p.tail ++ ';' :: p.last).takeWhile (· ≠ '(') =
      p.type ++ p.name ++ p.gap := by
    rw [show p.type ++ p.name ++ p.gap ++ '(' :: p.params ++ ')' :: p.tail ++ ';' :: p.last =
      (p.type ++ p.name ++ p.gap) ++ '(' :: (p.params ++ (')' :: p.tail ++ ';' :: p.last)) by simp]
    refine takeWhile_append_neg (p := fun x => decide (x ≠ '(')) (c := '(') ?_ (by decide) _
    intro d hd
    rw [List.mem_append, List.mem_append] at hd
    simp only [ne_eq, decide_not, Bool.not_eq_eq_eq_not, Bool.not_true, decide_eq_false_iff_not]
    rcases hd with (hd | hd) | hd
    · rintro rfl; exact h.flat.1 hd
    · rintro rfl; exact name_not_mem h.name (by decide) hd
    · rintro rfl; exact blank_not_mem h.gap (by decide) hd
  have hrev : (p.type ++ p.name ++ p.gap).reverse.dropWhile isspace = p.name.reverse ++ p.type.reverse := by
    rw [List.reverse_append, List.reverse_append]
    have := skip_blank (rev_blank h.gap) (p.name.reverse ++ p.type.reverse)
    unfold skip at this
    rw [this]
    obtain ⟨hn, hi⟩ := h.name
    cases en : p.name.reverse with
    | nil => simp at en; exact absurd en hn
    | cons d n =>
      exact skip_cons (ident_not_space (hi d (List.mem_reverse.1 (by rw [en]; exact List.mem_cons_self ..)))) _
  obtain ⟨tr, etr⟩ : ∃ tr, p.type.reverse = e :: tr := by
    cases et : p.type.reverse with
    | nil => simp at et; rw [et] at ht; cases ht
    | cons x tr =>
      have : p.type = tr.reverse ++ [x] := by
        rw [← List.reverse_reverse p.type, et]; simp
      rw [this] at hl
      simp at hl
      exact ⟨tr, by rw [hl]⟩
  have hnr : Name p.name.reverse := ⟨by simpa using h.name.1, fun d hd => h.name.2 d (List.mem_reverse.1 hd)⟩
  unfold funcDecl
  simp only [es, epre, hrev]
  have h1 : skipped (p.type ++ p.name ++ p.gap ++ '(' :: p.params ++ ')' :: p.tail ++ ';' :: p.last) = false := by
    rw [ht]; exact skipped_ident hc _
  rw [h1, if_neg (by decide)]
  rw [if_neg, if_neg, if_neg, if_neg]
  · rw [etr, take_name hnr he, List.reverse_reverse, if_neg h.name.1, if_neg (by rw [name_spec]; exact h.free), if_neg]
    simp
  · simp only [List.mem_append, List.mem_cons, not_or]
    refine ⟨⟨⟨⟨⟨?_, ?_⟩, ?_⟩, by decide, h.params.1⟩, by decide, h.tail.1⟩, by decide, ?_⟩
    · exact h.flat.2.1
    · exact name_not_mem h.name (by decide)
    · exact blank_not_mem h.gap (by decide)
    · exact blank_not_mem h.last (by decide)
  · rw [List.reverse_append, List.reverse_cons, List.append_assoc]
    have := skip_blank (rev_blank h.last)
      ([';'] ++ (p.type ++ p.name ++ p.gap ++ '(' :: p.params ++ ')' :: p.tail).reverse)
    unfold skip at this
    rw [this]
    simp [isspace]
  · simp
  · simp only [List.append_assoc]
    rw [List.any_eq_true]
    rintro ⟨w, hw, hs⟩
    rw [proto_first h _ w hw] at hs
    cases hs

/-- A prototype is no type. -/
theorem structDecl_proto {p : Proto} (h : p.Ok) : structDecl p.text = none := by
  obtain ⟨c, r, ht, hc⟩ := h.type
  have h1 : skipped (p.type ++ p.name ++ p.gap ++ '(' :: p.params ++ ')' :: p.tail ++ ';' :: p.last) = false := by
    rw [ht]; exact skipped_ident hc _
  have hf := fun w hw => proto_first h (p.name ++ (p.gap ++ ('(' :: p.params ++ ')' :: p.tail ++ ';' :: p.last))) w hw
  unfold structDecl
  simp only [skip_proto h]
  rw [h1, if_neg (by decide)]
  simp only [List.append_assoc] at hf ⊢
  rw [hf _ (by decide +kernel)]
  simp only [Option.map_none, Option.getD_none, Option.isSome_none, Bool.false_eq_true, if_false]
  rw [hf "struct".toList (by decide +kernel), hf "union".toList (by decide +kernel)]
  rw [ht]
  have : c ≠ '}' := ident_ne hc (by decide)
  simp only [List.cons_append]
  split
  · rename_i e
    exact absurd (List.cons.inj e).1 this
  · rfl

/-! ## The other lines -/

/-- A line whose first word is none of the three declares no type. -/
theorem structDecl_other {c : Char} {i r : Str} (hi : Blank i) (hc : isIdent c = true)
    (h : ∀ w ∈ ["typedef".toList, "struct".toList, "union".toList], (c :: r).takeWhile isIdent ≠ w) :
    structDecl (i ++ c :: r) = none := by
  have hf := fun w (hw : w ∈ leading) hm => afterWord_ne (leading_ident w hw) (h w hm)
  unfold structDecl
  simp only [skip_blank hi, skip_cons (ident_not_space hc)]
  rw [skipped_ident hc, if_neg (by decide), hf "typedef".toList (by decide +kernel) (by simp)]
  simp only [Option.map_none, Option.getD_none, Option.isSome_none, Bool.false_eq_true, if_false]
  rw [hf "struct".toList (by decide +kernel) (by simp), hf "union".toList (by decide +kernel) (by simp)]
  simp only
  split
  · rename_i e
    exact absurd (List.cons.inj e).1 (ident_ne hc (by decide))
  · rfl

theorem skip_mem {c : Char} {s : Str} (h : c ∈ skip s) : c ∈ s := (List.dropWhile_sublist _).subset h

/-- A line without a parenthesis declares no function. -/
theorem funcDecl_flat {s : Str} (h : '(' ∉ s) : funcDecl s = none := by
  unfold funcDecl
  simp only
  split
  · rfl
  · split
    · rfl
    · rw [if_pos fun hm => h (skip_mem hm)]

theorem funcDecl_leading {i w : Str} {c : Char} {r : Str} (hi : Blank i) (hw : w ∈ leading)
    (hc : isIdent c = false) : funcDecl (i ++ (w ++ c :: r)) = none := by
  have hs : skip (i ++ (w ++ c :: r)) = w ++ c :: r := by
    rw [skip_blank hi]
    have : ∀ w ∈ leading, w ≠ [] := by decide +kernel
    cases w with
    | nil => exact absurd rfl (this _ hw)
    | cons d w => exact skip_cons (ident_not_space (leading_ident _ hw d (List.mem_cons_self ..))) _
  unfold funcDecl
  simp only [hs]
  split
  · rfl
  · rw [if_pos]
    exact List.any_eq_true.2 ⟨w, hw, by rw [afterWord_self hc]; rfl⟩

/-- A tag after `struct` or `union`. -/
theorem tag_name {b2 n b3 : Str} {c : Char} (h2 : Blank b2) (hn : Name n) (h3 : Blank b3)
    (hc : c = '{' ∨ c = ';') (k rest : Str) :
    structDecl.tag k (b2 ++ (n ++ (b3 ++ c :: rest))) = some (n, k ++ n) := by
  have hci : isIdent c = false := by rcases hc with rfl | rfl <;> decide
  have hcs : isspace c = false := by rcases hc with rfl | rfl <;> decide
  have e : skip (b2 ++ (n ++ (b3 ++ c :: rest))) = n ++ b3 ++ c :: rest := by
    rw [skip_blank h2]
    obtain ⟨hn, hi⟩ := hn
    cases n with
    | nil => exact absurd rfl hn
    | cons d n =>
      rw [List.append_assoc]
      exact skip_cons (ident_not_space (hi d (List.mem_cons_self ..))) _
  unfold structDecl.tag
  simp only [e, take_name_blank hn h3 hci, drop_name_blank hn h3 hci, skip_blank h3, skip_cons hcs]
  rw [if_pos ⟨hn.1, by rcases hc with rfl | rfl <;> simp⟩]

/-- The keyword of a type after blanks that are not empty. -/
theorem structDecl_kw (u : Bool) {i r : Str} {c : Char} (hi : Blank i) (hc : isIdent c = false) :
    structDecl (i ++ (kw u ++ c :: r)) = structDecl.tag (kw u ++ [' ']) (c :: r) := by
  have hne : ∀ w, isIdent w.head! = true → w ∈ leading → w ≠ kw u → afterWord w (kw u ++ c :: r) = none :=
    fun w _ hw hn => afterWord_ne (leading_ident w hw) (by
      rw [take_name ⟨by cases u <;> decide +kernel, kw_ident u⟩ hc]; exact hn.symm)
  have hs : skip (i ++ (kw u ++ c :: r)) = kw u ++ c :: r := by
    rw [skip_blank hi]
    cases u
    · exact skip_cons (by decide) _
    · exact skip_cons (by decide) _
  have hk : skipped (kw u ++ c :: r) = false := by cases u <;> rfl
  unfold structDecl
  simp only [hs]
  rw [hk, if_neg (by decide), hne "typedef".toList (by decide +kernel) (by decide +kernel) (by cases u <;> decide +kernel)]
  simp only [Option.map_none, Option.getD_none]
  cases u
  · rw [show kw false = "struct".toList from rfl, afterWord_self hc]
    rfl
  · rw [hne "struct".toList (by decide +kernel) (by decide +kernel) (by decide +kernel),
      show kw true = "union".toList from rfl, afterWord_self hc]
    rfl

theorem structDecl_typedef (u : Bool) {i b1 r : Str} {c : Char} (hi : Blank i) (h1 : Blank b1) (h1' : b1 ≠ [])
    (hc : isIdent c = false) :
    structDecl (i ++ ("typedef".toList ++ (b1 ++ (kw u ++ c :: r)))) =
      structDecl.tag (kw u ++ [' ']) (c :: r) := by
  cases b1 with
  | nil => exact absurd rfl h1'
  | cons b b1 =>
    have hb := (h1 b (List.mem_cons_self ..)).1
    have hs : skip (i ++ ("typedef".toList ++ (b :: b1 ++ (kw u ++ c :: r)))) =
        "typedef".toList ++ (b :: b1 ++ (kw u ++ c :: r)) := by
      rw [skip_blank hi]
      exact skip_cons (by decide) _
    have hw : afterWord "typedef".toList ("typedef".toList ++ (b :: b1 ++ (kw u ++ c :: r))) =
        some (b :: b1 ++ (kw u ++ c :: r)) := afterWord_self (space_not_ident hb) _
    have hs2 : skip (b :: b1 ++ (kw u ++ c :: r)) = kw u ++ c :: r := by
      rw [skip_blank h1]
      cases u
      · exact skip_cons (by decide) _
      · exact skip_cons (by decide) _
    have hk : skipped ("typedef".toList ++ (b :: b1 ++ (kw u ++ c :: r))) = false := rfl
    unfold structDecl
    simp only [hs]
    rw [hk, if_neg (by decide), hw]
    simp only [Option.map_some, Option.getD_some, hs2]
    cases u
    · rw [show kw false = "struct".toList from rfl, afterWord_self hc]
      rfl
    · rw [afterWord_ne struct_ident (by
          rw [take_name ⟨by decide +kernel, kw_ident true⟩ hc]; decide +kernel),
        show kw true = "union".toList from rfl, afterWord_self hc]
      rfl

theorem structDecl_close {i b1 n b2 : Str} (hi : Blank i) (h1 : Blank b1) (hn : Name n) (h2 : Blank b2) (rest : Str) :
    structDecl (i ++ '}' :: (b1 ++ (n ++ (b2 ++ ';' :: rest)))) = some (n, n) := by
  have hs : skip (i ++ '}' :: (b1 ++ (n ++ (b2 ++ ';' :: rest)))) = '}' :: (b1 ++ (n ++ (b2 ++ ';' :: rest))) := by
    rw [skip_blank hi]
    exact skip_cons (by decide) _
  have hne : ∀ w ∈ leading, afterWord w ('}' :: (b1 ++ (n ++ (b2 ++ ';' :: rest)))) = none := by
    intro w hw
    refine afterWord_ne (leading_ident w hw) ?_
    rw [List.takeWhile_cons_of_neg (by decide)]
    revert w hw
    decide +kernel
  have e : skip (b1 ++ (n ++ (b2 ++ ';' :: rest))) = n ++ b2 ++ ';' :: rest := by
    rw [skip_blank h1]
    obtain ⟨hn, hi⟩ := hn
    cases n with
    | nil => exact absurd rfl hn
    | cons d n =>
      rw [List.append_assoc]
      exact skip_cons (ident_not_space (hi d (List.mem_cons_self ..))) _
  unfold structDecl
  simp only [hs]
  rw [show skipped ('}' :: (b1 ++ (n ++ (b2 ++ ';' :: rest)))) = false from rfl, if_neg (by decide),
    hne "typedef".toList (by decide +kernel)]
  simp only [Option.map_none, Option.getD_none, Option.isSome_none, Bool.false_eq_true, if_false]
  rw [hne "struct".toList (by decide +kernel), hne "union".toList (by decide +kernel)]
  simp only [e]
  rw [take_name_blank hn h2 (by decide), drop_name_blank hn h2 (by decide), skip_blank h2, skip_cons (by decide)]
  simp [hn.1]

/-- A brace that closes something else is no type: `} else {`, `} a, b;`, `} x = 1;`. -/
theorem structDecl_close_other {i b1 n b2 : Str} (hi : Blank i) (h1 : Blank b1) (hn : Name n) (h2 : Blank b2) {c : Char}
    (hc : isIdent c = false ∧ isspace c = false ∧ c ≠ ';') (rest : Str) :
    structDecl (i ++ '}' :: (b1 ++ (n ++ (b2 ++ c :: rest)))) = none := by
  have hs : skip (i ++ '}' :: (b1 ++ (n ++ (b2 ++ c :: rest)))) = '}' :: (b1 ++ (n ++ (b2 ++ c :: rest))) := by
    rw [skip_blank hi]
    exact skip_cons (by decide) _
  have hne : ∀ w ∈ leading, afterWord w ('}' :: (b1 ++ (n ++ (b2 ++ c :: rest)))) = none := by
    intro w hw
    refine afterWord_ne (leading_ident w hw) ?_
    rw [List.takeWhile_cons_of_neg (by decide)]
    revert w hw
    decide +kernel
  have e : skip (b1 ++ (n ++ (b2 ++ c :: rest))) = n ++ b2 ++ c :: rest := by
    rw [skip_blank h1]
    obtain ⟨hn, hi⟩ := hn
    cases n with
    | nil => exact absurd rfl hn
    | cons d n =>
      rw [List.append_assoc]
      exact skip_cons (ident_not_space (hi d (List.mem_cons_self ..))) _
  unfold structDecl
  simp only [hs]
  rw [show skipped ('}' :: (b1 ++ (n ++ (b2 ++ c :: rest)))) = false from rfl, if_neg (by decide),
    hne "typedef".toList (by decide +kernel)]
  simp only [Option.map_none, Option.getD_none, Option.isSome_none, Bool.false_eq_true, if_false]
  rw [hne "struct".toList (by decide +kernel), hne "union".toList (by decide +kernel)]
  simp only [e]
  rw [take_name_blank hn h2 hc.1, drop_name_blank hn h2 hc.1, skip_blank h2, skip_cons hc.2.1, if_neg]
  rintro ⟨-, h⟩
  exact hc.2.2 (Option.some.inj h)

theorem skipped_none {s : Str} (h : skipped (skip s) = true) : funcDecl s = none ∧ structDecl s = none := by
  unfold funcDecl structDecl
  simp [h]

/-- The name an item declares as a function is what the line declares, and the type likewise. -/
theorem item_decl {it : Item} (h : it.Ok) :
    (funcDecl it.text).toList ++ (structDecl it.text).toList.map (·.1) = it.names ∧
      (structDecl it.text).toList = it.types := by
  cases it with
  | proto p =>
    have h : p.Ok := h
    show (funcDecl p.text).toList ++ (structDecl p.text).toList.map (·.1) = _ ∧ (structDecl p.text).toList = _
    rw [funcDecl_proto h, structDecl_proto h]
    exact ⟨rfl, rfl⟩
  | tag u t i b1 b2 n b3 br rest =>
    obtain ⟨hi, h1, h1', h2, h2', hn, h3, -, -, -⟩ := h
    have hb : (if br then '{' else ';') = '{' ∨ (if br then '{' else ';') = ';' := by cases br <;> simp
    have key : funcDecl (Item.tag u t i b1 b2 n b3 br rest).text = none ∧
        structDecl (Item.tag u t i b1 b2 n b3 br rest).text = some (n, kw u ++ [' '] ++ n) := by
      cases b2 with
      | nil => exact absurd rfl h2'
      | cons b b2 =>
        have hbi := space_not_ident (h2 b (List.mem_cons_self ..)).1
        have ht := tag_name h2 hn h3 hb (kw u ++ [' ']) rest
        simp only [List.append_assoc, List.cons_append] at ht
        cases t with
        | false =>
          simp only [Item.text, Bool.false_eq_true, if_false, List.append_nil, List.append_assoc,
            List.cons_append]
          rw [structDecl_kw u hi hbi, ht]
          refine ⟨funcDecl_leading hi ?_ hbi, by simp⟩
          cases u <;> decide +kernel
        | true =>
          simp only [Item.text, if_true, List.append_assoc, List.cons_append]
          rw [structDecl_typedef u hi h1 (h1' rfl) hbi, ht]
          refine ⟨?_, by simp⟩
          cases b1 with
          | nil => exact absurd rfl (h1' rfl)
          | cons x b1 =>
            exact funcDecl_leading hi (w := "typedef".toList) (by decide +kernel)
              (space_not_ident (h1 x (List.mem_cons_self ..)).1)
    rw [key.1, key.2]
    simp [Item.names, Item.types]
  | close i b1 n b2 rest =>
    obtain ⟨hi, h1, hn, h2, -, hp, -⟩ := h
    have key : funcDecl (Item.close i b1 n b2 rest).text = none ∧
        structDecl (Item.close i b1 n b2 rest).text = some (n, n) := by
      simp only [Item.text, List.append_assoc, List.cons_append]
      rw [structDecl_close hi h1 hn h2 rest]
      refine ⟨funcDecl_flat ?_, rfl⟩
      simp only [List.mem_append, List.mem_cons, not_or]
      exact ⟨blank_not_mem hi (by decide), by decide, blank_not_mem h1 (by decide), name_not_mem hn (by decide),
        blank_not_mem h2 (by decide), by decide, hp⟩
    rw [key.1, key.2]
    simp [Item.names, Item.types]
  | field i t =>
    obtain ⟨hi, ⟨c, r, rfl, hc⟩, hp, -, -, hw⟩ := h
    have key : funcDecl (i ++ c :: r) = none ∧ structDecl (i ++ c :: r) = none := by
      refine ⟨funcDecl_flat ?_, structDecl_other hi hc hw⟩
      rw [List.mem_append, not_or]
      exact ⟨blank_not_mem hi (by decide), hp⟩
    simp only [Item.text]
    rw [key.1, key.2]
    exact ⟨rfl, rfl⟩
  | comment i t =>
    obtain ⟨hi, ⟨c, r, rfl, hc⟩, -, -⟩ := h
    have : skipped (skip (i ++ c :: r)) = true := by
      rw [skip_blank hi, skip_cons (by rcases hc with rfl | rfl <;> decide)]
      rcases hc with rfl | rfl <;> rfl
    obtain ⟨a, b⟩ := skipped_none this
    simp only [Item.text]
    rw [a, b]
    exact ⟨rfl, rfl⟩

/-! ## Lines -/

theorem lines_acc {l : Str} (hl : '\n' ∉ l) (acc s : Str) : lines acc (l ++ s) = lines (l.reverse ++ acc) s := by
  induction l generalizing acc with
  | nil => rfl
  | cons c l ih =>
    have hc : c ≠ '\n' := fun e => hl (by rw [e]; exact List.mem_cons_self ..)
    rw [List.cons_append, lines, if_neg (fun h => hc h.1), ih fun h => hl (List.mem_cons_of_mem _ h)]
    simp

/-- A file that is written line by line is read line by line. -/
theorem lines_file {ls : List Str} (h : ∀ l ∈ ls, '\n' ∉ l ∧ l.getLast? ≠ some '\\') :
    lines [] (file ls) = ls.filter (· ≠ []) := by
  induction ls with
  | nil => rfl
  | cons l ls ih =>
    have hl := h l (List.mem_cons_self ..)
    have e : file (l :: ls) = l ++ '\n' :: file ls := by simp [file]
    have ih := ih fun l hl => h l (List.mem_cons_of_mem _ hl)
    rw [e, lines_acc hl.1, List.append_nil, lines, if_pos ⟨rfl, by rw [List.head?_reverse]; exact hl.2⟩, ih]
    by_cases hn : l = []
    · subst hn; rfl
    · rw [if_neg (by simpa using hn), List.reverse_reverse, List.filter_cons_of_pos (by simpa using hn)]

/-- A line that ends in a backslash goes on with the next. -/
theorem lines_continued {a b : Str} (ha : '\n' ∉ a) (hb : '\n' ∉ b) (hl : b.getLast? ≠ some '\\') (hb' : b ≠ [])
    (rest : Str) :
    lines [] (a ++ '\\' :: '\n' :: b ++ '\n' :: rest) = (a ++ '\\' :: '\n' :: b) :: lines [] rest := by
  have e : a ++ '\\' :: '\n' :: b ++ '\n' :: rest = a ++ ('\\' :: '\n' :: (b ++ '\n' :: rest)) := by simp
  rw [e, lines_acc ha, lines, if_neg (fun h => absurd h.1 (by decide)), lines, if_neg (by simp), lines_acc hb, lines, if_pos]
  · simp
  · refine ⟨rfl, ?_⟩
    rw [List.head?_append, List.head?_reverse]
    cases hx : b.getLast? with
    | none => exact absurd (List.getLast?_eq_none_iff.1 hx) hb'
    | some x => rw [hx] at hl; simpa using hl

end Verif.CHeader
