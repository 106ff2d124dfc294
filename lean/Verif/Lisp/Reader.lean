import Verif.Lisp.Model
import Verif.Forth.Props

/-!
# The reader of the Lisp plugin

C130, first half: the text that is written for a block is the text of the C for it.
-/

namespace Verif.Lisp

open Forth (Str Out isspace)
open Spec

set_option linter.unusedSimpArgs false

/-! ## Texts -/

/-- A text at which a symbol ends. -/
def Stop (r : Str) : Prop := r = [] ∨ ∃ c r', r = c :: r' ∧ symChar c = false

/-- A text at which an expression begins. -/
def Start (s : Str) : Prop := ∃ c r, s = c :: r ∧ isspace c = false ∧ c ≠ ')'

theorem span_append {p : Char → Bool} {a r : Str} (h : ∀ c ∈ a, p c = true)
    (hr : r = [] ∨ ∃ c r', r = c :: r' ∧ p c = false) :
    (a ++ r).takeWhile p = a ∧ (a ++ r).dropWhile p = r := by
  induction a with
  | nil =>
    rcases hr with rfl | ⟨c, r', rfl, hc⟩
    · exact ⟨rfl, rfl⟩
    · rw [List.nil_append, List.takeWhile_cons, List.dropWhile_cons, hc]
      exact ⟨rfl, rfl⟩
  | cons c a ih =>
    obtain ⟨h1, h2⟩ := ih (fun c hc => h c (by simp [hc]))
    rw [List.cons_append, List.takeWhile_cons, List.dropWhile_cons, h c (by simp)]
    simp only [if_true, h1, h2, and_self]

theorem skipWs_sp {u : Str} (h : Sp u) (r : Str) : skipWs (u ++ r) = skipWs r := by
  unfold skipWs
  induction u with
  | nil => rfl
  | cons c u ih =>
    rw [List.cons_append, List.dropWhile_cons, if_pos (h c (by simp))]
    exact ih (fun c hc => h c (by simp [hc]))

theorem skipWs_cons {c : Char} (h : isspace c = false) (r : Str) : skipWs (c :: r) = c :: r := by
  unfold skipWs
  rw [List.dropWhile_cons, h]
  rfl

theorem skipWs_start {s : Str} (h : Start s) (r : Str) : skipWs (s ++ r) = s ++ r := by
  obtain ⟨c, s, rfl, hc, -⟩ := h
  exact skipWs_cons hc _

theorem skipWs_to {u s : Str} (hu : Sp u) (h : Start s) (r : Str) : skipWs (u ++ (s ++ r)) = s ++ r := by
  rw [skipWs_sp hu, skipWs_start h]

theorem skipWs_close {u : Str} (hu : Sp u) (r : Str) : skipWs (u ++ ')' :: r) = ')' :: r := by
  rw [skipWs_sp hu, skipWs_cons (by decide)]

theorem sp1_stop {u : Str} (h : Sp1 u) (r : Str) : Stop (u ++ r) := by
  obtain ⟨h, h0⟩ := h
  cases u with
  | nil => exact absurd rfl h0
  | cons c u =>
    right
    refine ⟨c, u ++ r, rfl, ?_⟩
    unfold symChar
    rw [h c (by simp)]
    rfl

theorem close_stop (r : Str) : Stop (')' :: r) := .inr ⟨')', r, rfl, by decide⟩

theorem open_stop (r : Str) : Stop ('(' :: r) := .inr ⟨'(', r, rfl, by decide⟩

theorem sp_stop {u : Str} (h : Sp u) {r : Str} (hr : Stop r) : Stop (u ++ r) := by
  cases u with
  | nil => exact hr
  | cons c u => exact sp1_stop ⟨h, by simp⟩ r

theorem stop_space {r : Str} (h : Stop r) {p : Char → Bool} (hp : ∀ c, symChar c = false → p c = false) :
    r = [] ∨ ∃ c r', r = c :: r' ∧ p c = false := by
  rcases h with h | ⟨c, r', h, hc⟩
  · exact .inl h
  · exact .inr ⟨c, r', h, hp c hc⟩

theorem close_paren {u : Str} (hu : Sp u) (r : Str) : close (u ++ ')' :: r) = .ok r := by
  unfold close
  have h : (u ++ ')' :: r).dropWhile (· ≠ ')') = ')' :: r := by
    refine (span_append ?_ (.inr ⟨')', r, rfl, by decide⟩)).2
    intro c hc
    have := hu c hc
    have : c ≠ ')' := by intro e; rw [e] at this; exact absurd this (by decide)
    simpa using this
  rw [h]

theorem isdigit_dec {v : Nat} (h : v < 10) : isdigit (Char.ofNat (48 + v)) = true ∧
    isspace (Char.ofNat (48 + v)) = false ∧ symChar (Char.ofNat (48 + v)) = true ∧
    Char.ofNat (48 + v) ≠ ')' ∧ Char.ofNat (48 + v) ≠ '"' ∧ Char.ofNat (48 + v) ≠ '-' ∧
    Char.ofNat (48 + v) ≠ '(' := by
  have : ∀ v, v < 10 → isdigit (Char.ofNat (48 + v)) = true ∧
    isspace (Char.ofNat (48 + v)) = false ∧ symChar (Char.ofNat (48 + v)) = true ∧
    Char.ofNat (48 + v) ≠ ')' ∧ Char.ofNat (48 + v) ≠ '"' ∧ Char.ofNat (48 + v) ≠ '-' ∧
    Char.ofNat (48 + v) ≠ '(' := by decide +kernel
  exact this v h

/-- Characters of names. -/
theorem name_char {c : Char} (h : c.isAlphanum = true ∨ c = '_') : symChar c = true ∧ isspace c = false ∧
    c ≠ ')' ∧ c ≠ '(' ∧ c ≠ '"' ∧ c ≠ '-' ∧ c ≠ '+' ∧ c ≠ '*' ∧ c ≠ '/' ∧ c ≠ '<' ∧ c ≠ '>' ∧ c ≠ '=' ∧
    c ≠ '!' := by
  have ne : ∀ d : Char, (d.isAlphanum = true ∨ d = '_') = False → c ≠ d := by
    intro d hd e
    rw [← hd, ← e]
    exact h
  have hsp : isspace c = false := by
    cases hs : isspace c with
    | false => rfl
    | true =>
      exfalso
      unfold isspace at hs
      simp only [Bool.or_eq_true, decide_eq_true_eq, Bool.and_eq_true] at hs
      rcases hs with hs | ⟨h1, h2⟩
      · exact ne ' ' (by decide) hs
      · have h2' : c.toNat ≤ 13 := h2
        rcases h with h | h
        · simp only [Char.isAlphanum, Char.isAlpha, Char.isUpper, Char.isLower, Char.isDigit, Bool.or_eq_true,
            Bool.and_eq_true, decide_eq_true_eq] at h
          have e : c.toNat = c.val.toNat := rfl
          rcases h with (h | h) | h
          all_goals
            have := UInt32.le_iff_toNat_le.mp h.1
            simp at this
            omega
        · rw [h] at h2'
          exact absurd h2' (by decide)
  refine ⟨?_, hsp, ne _ (by decide), ne _ (by decide), ne _ (by decide), ne _ (by decide), ne _ (by decide),
    ne _ (by decide), ne _ (by decide), ne _ (by decide), ne _ (by decide), ne _ (by decide),
    ne _ (by decide)⟩
  unfold symChar
  rw [hsp]
  simp [ne ')' (by decide), ne '(' (by decide)]

theorem alpha_digit {c : Char} (h : c.isAlpha = true ∨ c = '_') : isdigit c = false := by
  cases hd : isdigit c with
  | false => rfl
  | true =>
    exfalso
    unfold isdigit at hd
    simp only [Bool.and_eq_true, decide_eq_true_eq] at hd
    have h1 : 48 ≤ c.val.toNat := UInt32.le_iff_toNat_le.mp hd.1
    have h2 : c.val.toNat ≤ 57 := UInt32.le_iff_toNat_le.mp hd.2
    rcases h with h | h
    · simp only [Char.isAlpha, Char.isUpper, Char.isLower, Bool.or_eq_true, Bool.and_eq_true,
        decide_eq_true_eq] at h
      have e : c.toNat = c.val.toNat := rfl
      rcases h with h | h
      all_goals
        have := UInt32.le_iff_toNat_le.mp h.1
        simp at this
        omega
    · rw [h] at h2
      exact absurd h2 (by decide)

theorem name_chars {x : Str} (h : Name x) : (∀ c ∈ x, c.isAlphanum = true ∨ c = '_') ∧ x ≠ [] := by
  obtain ⟨⟨c, r, rfl, hc, hr⟩, -⟩ := h
  refine ⟨?_, by simp⟩
  intro d hd
  rcases List.mem_cons.mp hd with rfl | hd
  · rcases hc with hc | hc
    · left; unfold Char.isAlphanum; rw [hc]; rfl
    · exact .inr hc
  · exact hr d hd

theorem name_start {x : Str} (h : Name x) : Start x := by
  have hx := (name_chars h).1
  obtain ⟨⟨c, r, rfl, -⟩, -⟩ := h
  obtain ⟨-, h1, h2, -⟩ := name_char (hx c (by simp))
  exact ⟨c, r, rfl, h1, h2⟩

theorem atom_name {x : Str} (h : Name x) {r : Str} (hr : Stop r) : atom (x ++ r) = .ok (x, r) := by
  have hx := (name_chars h).1
  obtain ⟨h1, h2⟩ := span_append (fun c hc => (name_char (hx c hc)).1) hr
  obtain ⟨⟨c, s, rfl, hc, -⟩, -⟩ := h
  obtain ⟨-, -, n1, -, n2, n3, -⟩ := name_char (hx c (by simp))
  have hd := alpha_digit hc
  unfold atom
  simp only [List.cons_append] at h1 h2 ⊢
  split
  · rename_i he; injection he with he _; exact absurd he n1
  · rename_i he; injection he with he _; exact absurd he n2
  · rename_i he; injection he with he _; exact absurd he n3
  · rename_i he
    injection he with he1 he2
    subst he1 he2
    rw [if_neg (by rw [hd]; simp), h1, h2]
  · rename_i he; simp at he

theorem atom_nil {r : Str} (hr : Stop r) : atom ("nil".toList ++ r) = .ok ("nil".toList, r) := by
  obtain ⟨h1, h2⟩ := span_append (p := symChar) (a := "nil".toList) (by decide) hr
  have e : atom ("nil".toList ++ r) =
      .ok (("nil".toList ++ r).takeWhile symChar, ("nil".toList ++ r).dropWhile symChar) := rfl
  rw [e, h1, h2]

theorem atom_numeral {s : Str} {n : Int} (h : Numeral s n) {r : Str} (hr : Stop r) :
    atom (s ++ r) = .ok ("l_num(".toList ++ s ++ ")".toList, r) := by
  have hst : r = [] ∨ ∃ c r', r = c :: r' ∧ isdigit c = false := by
    refine stop_space hr ?_
    intro c hc
    cases hd : isdigit c with
    | false => rfl
    | true =>
      exfalso
      unfold isdigit at hd
      simp only [Bool.and_eq_true, decide_eq_true_eq] at hd
      have h1 : 48 ≤ c.val.toNat := UInt32.le_iff_toNat_le.mp hd.1
      have h2 : c.val.toNat ≤ 57 := UInt32.le_iff_toNat_le.mp hd.2
      have hv : c = Char.ofNat (48 + (c.toNat - 48)) := by
        have e : c.toNat = c.val.toNat := rfl
        rw [show 48 + (c.toNat - 48) = c.toNat by omega, Char.ofNat_toNat]
      have e : c.toNat = c.val.toNat := rfl
      have := (isdigit_dec (v := c.toNat - 48) (by omega)).2.2.1
      rw [← hv, hc] at this
      exact absurd this (by simp)
  have dig : ∀ {t : Str} {m : Nat}, Forth.Spec.Dec t m → ∀ c ∈ t, isdigit c = true := by
    intro t m ht c hc
    obtain ⟨v, hv, rfl⟩ := Forth.dec_chars ht c hc
    exact (isdigit_dec hv).1
  cases h with
  | pos hd _ =>
    obtain ⟨h1, h2⟩ := span_append (dig hd) hst
    obtain ⟨v, t, rfl, hv, -⟩ := Forth.dec_head hd
    obtain ⟨d1, -, -, n1, n2, n3, -⟩ := isdigit_dec hv
    unfold atom
    simp only [List.cons_append] at h1 h2 ⊢
    split
    · rename_i he; injection he with he _; exact absurd he n1
    · rename_i he; injection he with he _; exact absurd he n2
    · rename_i he; injection he with he _; exact absurd he n3
    · rename_i he
      injection he with he1 he2
      subst he1 he2
      rw [if_pos d1, h1, h2]
    · rename_i he; simp at he
  | neg hd _ =>
    rename_i t m
    obtain ⟨h1, h2⟩ := span_append (dig hd) hst
    obtain ⟨v, t, rfl, hv, -⟩ := Forth.dec_head hd
    obtain ⟨d1, -⟩ := isdigit_dec hv
    simp only [List.cons_append] at h1 h2 ⊢
    rw [atom, if_pos d1, h1, h2]

theorem numeral_start {s : Str} {n : Int} (h : Numeral s n) : Start s := by
  cases h with
  | pos hd _ =>
    obtain ⟨v, t, rfl, hv, -⟩ := Forth.dec_head hd
    obtain ⟨-, h1, -, h2, -⟩ := isdigit_dec hv
    exact ⟨_, t, rfl, h1, h2⟩
  | neg hd _ => exact ⟨'-', _, rfl, by decide, by decide⟩

theorem numeral_head {s : Str} {n : Int} (h : Numeral s n) : ∃ c r, s = c :: r ∧ isspace c = false ∧ c ≠ '(' := by
  cases h with
  | pos hd _ =>
    obtain ⟨v, t, rfl, hv, -⟩ := Forth.dec_head hd
    obtain ⟨-, h1, -, -, -, -, h2⟩ := isdigit_dec hv
    exact ⟨_, t, rfl, h1, h2⟩
  | neg hd _ => exact ⟨'-', _, rfl, by decide, by decide⟩

theorem src_start {fs : List Str} {e : Sx} {s : Str} (h : Src e s) (hg : Good fs e) : Start s := by
  cases h with
  | num => cases hg with | num h => exact numeral_start h
  | nil => exact ⟨'n', _, rfl, by decide, by decide⟩
  | sym => cases hg with | sym h => exact name_start h
  | bin | un | ite | whn | letb | call => exact ⟨'(', _, rfl, by decide, by decide⟩

/-! ## Lists -/

theorem expr_list {k : Nat} (r : Str) : expr (k + 1) ('(' :: r) = list (expr k) k r := by
  rw [expr, skipWs_cons (by decide)]
  rfl

theorem expr_atom {k : Nat} {c : Char} {r : Str} (h1 : isspace c = false) (h2 : c ≠ '(') :
    expr (k + 1) (c :: r) = atom (c :: r) := by
  rw [expr, skipWs_cons h1]
  split
  · rename_i he; simp at he
  · rename_i he; injection he with he _; exact absurd he h2
  · rfl

theorem list_word (ex : Str → Out (Str × Str)) (k : Nat) {u w r : Str} (hu : Sp u)
    (hw : ∀ c ∈ w, symChar c = true) (h0 : w ≠ []) (hr : Stop r) {a : Str} {v r' : Str} (hv : Sp v)
    (hf : form ex k w (w ++ r) r = .ok (a, v ++ ')' :: r')) :
    list ex k (u ++ (w ++ r)) = .ok (a, r') := by
  have hs : Start w := by
    cases w with
    | nil => exact absurd rfl h0
    | cons c w =>
      have := hw c (by simp)
      unfold symChar at this
      simp only [Bool.and_eq_true, Bool.not_eq_true', decide_eq_true_eq] at this
      exact ⟨c, w, rfl, this.1.1, this.1.2⟩
  obtain ⟨h1, h2⟩ := span_append hw hr
  unfold list
  simp only
  rw [skipWs_to hu hs, if_neg (by simp [h0]), h1, h2, hf]
  simp only [Out.ok_bind]
  rw [close_paren hv]
  rfl

/-! ## Forms -/

theorem form_bin (ex : Str → Out (Str × Str)) (k : Nat) (o : Bin) (p r : Str) :
    form ex k o.word p r = (do
      let (a, r) ← two ex o.fn r
      .ok (a, match o with
        | .lt | .cons => r
        | _ => dropRest (skipWs r))) := by
  cases o
  case add => rfl
  case sub => rfl
  case mul => rfl
  case div => rfl
  case lt =>
    show two ex Bin.lt.fn r = _
    cases two ex Bin.lt.fn r <;> rfl
  case cons =>
    show two ex Bin.cons.fn r = _
    cases two ex Bin.cons.fn r <;> rfl

theorem form_un (ex : Str → Out (Str × Str)) (k : Nat) (o : Un) (p r : Str) :
    form ex k o.word p r = one ex o.fn r := by
  cases o <;> rfl

theorem form_if (ex : Str → Out (Str × Str)) (k : Nat) (r : Str) :
    form ex k "if".toList ("if".toList ++ r) r = cond ex r := rfl

theorem form_let (ex : Str → Out (Str × Str)) (k : Nat) (r : Str) :
    form ex k "let".toList ("let".toList ++ r) r = letForm ex k r := rfl

theorem form_defun (ex : Str → Out (Str × Str)) (k : Nat) (r : Str) :
    form ex k "defun".toList ("defun".toList ++ r) r = defun ex k r := rfl

theorem form_print (ex : Str → Out (Str × Str)) (k : Nat) (r : Str) {c : Char} {r' : Str} (hr : r = c :: r')
    (hc : c ≠ 'l') : form ex k "print".toList ("print".toList ++ r) r = print ex false r := by
  have : decide ((("print".toList ++ r).drop 5).head? = some 'l') = false := by
    rw [hr]
    simpa using hc
  show print ex (decide ((("print".toList ++ r).drop 5).head? = some 'l')) r = _
  rw [this]

theorem form_println (ex : Str → Out (Str × Str)) (k : Nat) (r : Str) :
    form ex k "println".toList ("println".toList ++ r) r = print ex true r := rfl

theorem take_print {f r : Str} (hr : Stop r) (h : (f ++ r).take 5 = "print".toList) :
    f.take 5 = "print".toList := by
  by_cases hl : 5 ≤ f.length
  · rw [List.take_append_of_le_length hl] at h
    exact h
  · exfalso
    rw [List.take_append] at h
    rcases hr with rfl | ⟨c, r', rfl, hc⟩
    · have := congrArg List.length h
      simp at this
      omega
    · have hm : c ∈ "print".toList := by
        rw [← h]
        apply List.mem_append_right
        obtain ⟨m, hm⟩ : ∃ m, 5 - f.length = m + 1 := ⟨4 - f.length, by omega⟩
        rw [hm]
        simp
      have : ∀ c ∈ "print".toList, symChar c = true := by decide
      rw [this c hm] at hc
      exact absurd hc (by simp)

theorem form_call (ex : Str → Out (Str × Str)) (k : Nat) {f : Str} (h : FName f) {r : Str} (hr : Stop r) :
    form ex k f (f ++ r) r = (do
      let (a, r) ← args ex k true (skipWs r)
      .ok (f ++ "(".toList ++ a ++ ")".toList, r)) := by
  obtain ⟨hn, hw, hp⟩ := h
  have hx := (name_chars hn).1
  obtain ⟨⟨c, s, rfl, -⟩, -⟩ := hn
  obtain ⟨-, -, -, -, -, n2, n3, n4, n5, n6, n7, n8, n9⟩ := name_char (hx c (by simp))
  unfold form
  rw [if_neg (by simp [n2, n3, n4, n5]), if_neg (by simp [n6]), if_neg (by simp [n7]), if_neg (by simp [n8, n9]),
    if_neg (fun e => hw (by rw [e]; decide)), if_neg (fun e => hw (by rw [e]; decide)),
    if_neg (fun e => hw (by rw [e]; decide)), if_neg (fun e => hw (by rw [e]; decide)),
    if_neg (fun e => hp (take_print hr e)),
    if_neg (fun e => hw (by rw [e]; decide)), if_neg (fun e => hw (by rw [e]; decide)),
    if_neg (fun e => hw (by rw [e]; decide))]

theorem dropRest_close (r : Str) : dropRest (')' :: r) = ')' :: r := by
  rw [dropRest, if_pos rfl]

/-! ## Expressions -/

/-- What the reader does with an expression. -/
def Reads (e : Sx) (s : Str) : Prop :=
  ∀ k r, s.length < k → Stop r → expr k (s ++ r) = .ok (e.c.text, r)

/-! ### Texts -/

theorem call2_text (f : Str) (a b : CE) : (CE.call f [a, b]).text =
    f ++ "(".toList ++ a.text ++ ", ".toList ++ b.text ++ ")".toList := by
  simp only [CE.text, commas, commasTail, cCall, cNext, List.append_nil, List.append_assoc]

theorem call1_text (f : Str) (a : CE) : (CE.call f [a]).text = f ++ "(".toList ++ a.text ++ ")".toList := by
  rw [CE.text, commas, commasTail, cCall, List.append_nil]

theorem call_text (f : Str) (as : List CE) : (CE.call f as).text = f ++ "(".toList ++ commas as ++ ")".toList := by
  rw [CE.text, cCall]

theorem cond_text (c a b : CE) : (CE.cond c a b).text =
    "(l_truthy(".toList ++ c.text ++ ") ? ".toList ++ a.text ++ " : ".toList ++ b.text ++ ")".toList := by
  rw [CE.text]
  rfl

theorem block_text (xs : List Str) (es b : List CE) : (CE.block xs es b).text =
    "({\n".toList ++ decls es xs ++ semis b ++ "})".toList := by
  rw [CE.text, cBlock]

theorem decls_cons (x : Str) (xs : List Str) (e : CE) (es : List CE) : decls (e :: es) (x :: xs) =
    "LVal ".toList ++ x ++ " = ".toList ++ e.text ++ ";\n".toList ++ decls es xs := by
  rw [decls]
  rfl

theorem nil_text : nilCall.text = "l_nil()".toList := by
  simp only [nilCall, CE.text, cCall, commas]
  rfl

theorem fn_text (f : Str) (ps : List Str) (b : List CE) : (CS.fn f ps b).text =
    "auto LVal ".toList ++ f ++ "(".toList ++ paramText true ps ++
      ") {\n return ({\n".toList ++ semis b ++ "});\n}".toList := rfl

theorem print_text (nl : Bool) (e : CE) : (CS.print nl e).text =
    "l_print(".toList ++ e.text ++ ");".toList ++ (if nl then " printf(\"\\n\");".toList else []) := rfl

theorem puts_text (nl : Bool) (t : Str) : (CS.puts nl t).text =
    "printf(\"".toList ++ t ++ (if nl then "\\n".toList else []) ++ "\")".toList := rfl

theorem two_src {k : Nat} {a b : Sx} {v w x s t r f : Str} (hv : Sp v) (hw : Sp1 w) (hx : Sp x)
    (sa : Start s) (sb : Start t) (ha : Reads a s) (hb : Reads b t) (k1 : s.length < k) (k2 : t.length < k) :
    two (expr k) f (v ++ (s ++ (w ++ (t ++ (x ++ ')' :: r))))) =
      .ok ((CE.call f [a.c, b.c]).text, x ++ ')' :: r) := by
  unfold two
  rw [skipWs_to hv sa, ha k _ k1 (sp1_stop hw _)]
  rw [Out.ok_bind]
  dsimp only
  rw [skipWs_to hw.1 sb, hb k _ k2 (sp_stop hx (close_stop _))]
  rw [Out.ok_bind, call2_text]

theorem words_sym (o : Bin) : (∀ c ∈ o.word, symChar c = true) ∧ o.word ≠ [] := by
  cases o <;> decide

theorem unwords_sym (o : Un) : (∀ c ∈ o.word, symChar c = true) ∧ o.word ≠ [] := by
  cases o <;> decide

theorem srcs_stop {es : List Sx} {t : Str} (h : Srcs es t) (r : Str) : Stop (t ++ ')' :: r) := by
  cases h with
  | nil hu => exact sp_stop hu (close_stop _)
  | cons hu _ _ => rw [List.append_assoc, List.append_assoc]; exact sp1_stop hu _

/-- What the loops do with expressions. -/
def ReadsArgs (es : List Sx) (t : Str) : Prop :=
  (∀ K k r, t.length < K → t.length < k →
    args (expr K) k true (skipWs (t ++ ')' :: r)) = .ok (commas (cs es), ')' :: r) ∧
    args (expr K) k false (skipWs (t ++ ')' :: r)) = .ok (commasTail (cs es), ')' :: r)) ∧
  (∀ K k r, t.length < K → t.length < k →
    stmts (expr K) k (skipWs (t ++ ')' :: r)) = .ok (semis (cs es), ')' :: r))

/-- What the loop does with bindings. -/
def ReadsBinds (xs : List Str) (es : List Sx) (t : Str) : Prop :=
  ∀ K k r, t.length < K → t.length < k →
    binds (expr K) k (skipWs (t ++ ')' :: r)) = .ok (decls (cs es) xs, ')' :: r)

theorem reads_nil {u : Str} (hu : Sp u) : ReadsArgs [] u := by
  have : ∀ r, skipWs (u ++ ')' :: r) = ')' :: r := fun r => skipWs_close hu r
  refine ⟨?_, ?_⟩
  · intro K k r _ hk
    obtain ⟨k, rfl⟩ : ∃ j, k = j + 1 := ⟨k - 1, by omega⟩
    rw [this, args, args, if_pos (by simp), if_pos (by simp)]
    exact ⟨rfl, rfl⟩
  · intro K k r _ hk
    obtain ⟨k, rfl⟩ : ∃ j, k = j + 1 := ⟨k - 1, by omega⟩
    rw [this, stmts, if_pos (by simp)]
    rfl

theorem start_guard {s : Str} (h : Start s) (r : Str) : ¬ (s ++ r = [] ∨ (s ++ r).head? = some ')') := by
  obtain ⟨c, s, rfl, -, hc⟩ := h
  simp [hc]

theorem reads_cons {e : Sx} {es : List Sx} {u s t : Str} (hu : Sp1 u) (hs : Start s) (he : Reads e s)
    (ht : Srcs es t) (hes : ReadsArgs es t) : ReadsArgs (e :: es) (u ++ s ++ t) := by
  refine ⟨?_, ?_⟩
  · intro K k r hK hk
    obtain ⟨k, rfl⟩ : ∃ j, k = j + 1 := ⟨k - 1, by omega⟩
    have hs0 : 0 < s.length := by obtain ⟨c, s, rfl, -⟩ := hs; simp
    simp only [List.length_append] at hK hk
    obtain ⟨-, h2⟩ := hes.1 K k r (by omega) (by omega)
    rw [List.append_assoc, List.append_assoc, skipWs_to hu.1 hs, args, args, if_neg (start_guard hs _),
      if_neg (start_guard hs _), he K _ (by omega) (srcs_stop ht r)]
    simp only [Out.ok_bind]
    rw [h2]
    simp only [cs, commas, cNext, commasTail, Out.ok_bind, List.append_assoc, List.append_nil, List.nil_append, if_true, if_false, Bool.false_eq_true, and_self]
  · intro K k r hK hk
    obtain ⟨k, rfl⟩ : ∃ j, k = j + 1 := ⟨k - 1, by omega⟩
    have hs0 : 0 < s.length := by obtain ⟨c, s, rfl, -⟩ := hs; simp
    simp only [List.length_append] at hK hk
    have h2 := hes.2 K k r (by omega) (by omega)
    rw [List.append_assoc, List.append_assoc, skipWs_to hu.1 hs, stmts, if_neg (start_guard hs _),
      he K _ (by omega) (srcs_stop ht r)]
    simp only [Out.ok_bind]
    rw [h2]
    simp only [cs, semis, cStmt, Out.ok_bind, List.append_assoc, List.append_nil, List.nil_append, if_true, if_false, Bool.false_eq_true]

/-- A text at which the name of a parameter ends. -/
def Ends (r : Str) : Prop := r = [] ∨ ∃ c r', r = c :: r' ∧ (isspace c = true ∨ c = ')')

theorem sp1_ends {u : Str} (h : Sp1 u) (r : Str) : Ends (u ++ r) := by
  obtain ⟨h, h0⟩ := h
  cases u with
  | nil => exact absurd rfl h0
  | cons c u => exact .inr ⟨c, u ++ r, rfl, .inl (h c (by simp))⟩

theorem sp_ends {u : Str} (h : Sp u) (r : Str) : Ends (u ++ ')' :: r) := by
  cases u with
  | nil => exact .inr ⟨')', r, rfl, .inr rfl⟩
  | cons c u => exact sp1_ends ⟨h, by simp⟩ _

theorem name_ends {x : Str} (h : Name x) {r : Str} (hr : Ends r) :
    (x ++ r).takeWhile (fun c => !isspace c && c ≠ ')') = x ∧
      (x ++ r).dropWhile (fun c => !isspace c && c ≠ ')') = r := by
  refine span_append ?_ ?_
  · intro c hc
    obtain ⟨-, h1, h2, -⟩ := name_char ((name_chars h).1 c hc)
    simp [h1, h2]
  · rcases hr with rfl | ⟨c, r', rfl, hc⟩
    · exact .inl rfl
    · right
      refine ⟨c, r', rfl, ?_⟩
      rcases hc with hc | rfl
      · rw [hc]; rfl
      · rfl

theorem binds_nil {u : Str} (hu : Sp u) : ReadsBinds [] [] u := by
  intro K k r _ hk
  obtain ⟨k, rfl⟩ : ∃ j, k = j + 1 := ⟨k - 1, by omega⟩
  rw [skipWs_close hu]
  rfl

theorem binds_cons {x : Str} {xs : List Str} {e : Sx} {es : List Sx} {u v w y s t : Str} (hx : Name x)
    (hu : Sp u) (hv : Sp v) (hw : Sp1 w) (hs : Start s) (he : Reads e s) (hy : Sp y)
    (hb : ReadsBinds xs es t) :
    ReadsBinds (x :: xs) (e :: es) (u ++ '(' :: (v ++ x ++ w ++ s ++ y ++ ')' :: t)) := by
  intro K k r hK hk
  obtain ⟨k, rfl⟩ : ∃ j, k = j + 1 := ⟨k - 1, by omega⟩
  simp only [List.length_append, List.length_cons] at hK hk
  have h2 := hb K k r (by omega) (by omega)
  simp only [List.append_assoc, List.cons_append]
  rw [skipWs_sp hu, skipWs_cons (by decide), binds]
  simp only
  rw [skipWs_to hv (name_start hx)]
  obtain ⟨e1, e2⟩ := name_ends hx (sp1_ends hw (s ++ (y ++ ')' :: (t ++ ')' :: r))))
  rw [e1, e2, skipWs_to hw.1 hs, he K _ (by omega) (sp_stop hy (close_stop _))]
  simp only [Out.ok_bind]
  rw [skipWs_close hy, if_pos (by rfl), List.tail_cons, h2]
  rw [Out.ok_bind, cs, decls_cons]

theorem let_src {K k : Nat} {xs : List Str} {es b : List Sx} {v s t r : Str} (hv : Sp v)
    (hs : ReadsBinds xs es s) (ht : ReadsArgs b t) (k1 : s.length < K) (k2 : t.length < K)
    (k3 : s.length < k) (k4 : t.length < k) :
    letForm (expr K) k (v ++ '(' :: (s ++ ')' :: (t ++ ')' :: r))) =
      .ok ((CE.block xs (cs es) (cs b)).text, ')' :: r) := by
  unfold letForm
  simp only
  rw [skipWs_sp hv, skipWs_cons (by decide), if_pos (by rfl), List.tail_cons, hs K k _ k1 k3]
  simp only [Out.ok_bind]
  rw [if_neg (by simp), List.tail_cons]
  rw [ht.2 K k r k2 k4]
  rw [Out.ok_bind, block_text]

theorem cond_src {k : Nat} {c a b : Sx} {v w x y s t q r : Str} (hv : Sp v) (hw : Sp1 w) (hx : Sp1 x)
    (hy : Sp y) (sc : Start s) (sa : Start t) (sb : Start q) (hc : Reads c s) (ha : Reads a t)
    (hb : Reads b q) (k1 : s.length < k) (k2 : t.length < k) (k3 : q.length < k) :
    cond (expr k) (v ++ (s ++ (w ++ (t ++ (x ++ (q ++ (y ++ ')' :: r))))))) =
      .ok ((CE.cond c.c a.c b.c).text, y ++ ')' :: r) := by
  unfold cond
  rw [skipWs_to hv sc, hc k _ k1 (sp1_stop hw _)]
  simp only [Out.ok_bind]
  rw [skipWs_to hw.1 sa, ha k _ k2 (sp1_stop hx _)]
  simp only [Out.ok_bind]
  have hq : ¬ (q ++ (y ++ ')' :: r)).head? = some ')' := fun h => start_guard sb _ (.inr h)
  rw [skipWs_to hx.1 sb, if_neg hq, hb k _ k3 (sp_stop hy (close_stop _))]
  rw [Out.ok_bind, cond_text]

theorem when_src {k : Nat} {c a : Sx} {v w x s t r : Str} (hv : Sp v) (hw : Sp1 w) (hx : Sp x)
    (sc : Start s) (sa : Start t) (hc : Reads c s) (ha : Reads a t)
    (k1 : s.length < k) (k2 : t.length < k) :
    cond (expr k) (v ++ (s ++ (w ++ (t ++ (x ++ ')' :: r))))) =
      .ok ((CE.cond c.c a.c nilCall).text, ')' :: r) := by
  unfold cond
  rw [skipWs_to hv sc, hc k _ k1 (sp1_stop hw _)]
  simp only [Out.ok_bind]
  rw [skipWs_to hw.1 sa, ha k _ k2 (sp_stop hx (close_stop _))]
  simp only [Out.ok_bind]
  rw [skipWs_close hx, if_pos (by rfl)]
  rw [cond_text, nil_text]

mutual

/-- The reader reads expressions. -/
theorem reads {fs : List Str} : ∀ {e : Sx} {s : Str}, Src e s → Good fs e → Reads e s
  | _, _, .num, hg => by
    cases hg with
    | num h =>
      intro k r hk hr
      obtain ⟨k, rfl⟩ : ∃ j, k = j + 1 := ⟨k - 1, by omega⟩
      have ha := atom_numeral h hr
      obtain ⟨c, t, rfl, h1, h2⟩ := numeral_head h
      rw [List.cons_append, expr_atom h1 h2, ← List.cons_append, ha]
      rfl
  | _, _, .nil, _ => by
    intro k r hk hr
    obtain ⟨k, rfl⟩ : ∃ j, k = j + 1 := ⟨k - 1, by omega⟩
    have := atom_nil hr
    rw [show "nil".toList ++ r = 'n' :: ('i' :: 'l' :: r) from rfl] at this ⊢
    rw [expr_atom (by decide) (by decide), this]
    rfl
  | _, _, .sym, hg => by
    cases hg with
    | sym h _ =>
      intro k r hk hr
      obtain ⟨k, rfl⟩ : ∃ j, k = j + 1 := ⟨k - 1, by omega⟩
      have ha := atom_name h hr
      have hx := (name_chars h).1
      obtain ⟨⟨c, t, rfl, -⟩, -⟩ := h
      obtain ⟨-, h1, -, h2, -⟩ := name_char (hx c (by simp))
      rw [List.cons_append, expr_atom h1 h2, ← List.cons_append, ha]
      rfl
  | _, _, .bin (o := o) (a := a) (b := b) hu hv sa hw sb hx, hg => by
    cases hg with
    | bin ga gb =>
      rename_i u v w x s t
      have ra := reads sa ga
      have rb := reads sb gb
      intro k r hk hr
      obtain ⟨k, rfl⟩ : ∃ j, k = j + 1 := ⟨k - 1, by omega⟩
      simp only [List.length_append, List.length_cons, List.length_nil] at hk
      simp only [List.cons_append, List.append_assoc, List.nil_append]
      rw [expr_list]
      have h2 := two_src (f := o.fn) (k := k) (r := r) hv.1 hw hx (src_start sa ga) (src_start sb gb) ra rb
        (by omega) (by omega)
      by_cases ho : o = .lt ∨ o = .cons
      · refine list_word (expr k) k hu (words_sym o).1 (words_sym o).2 (sp1_stop hv _) hx (a := (CE.call o.fn [a.c, b.c]).text) ?_
        rw [form_bin, h2]
        rcases ho with rfl | rfl <;> rfl
      · refine list_word (expr k) k hu (words_sym o).1 (words_sym o).2 (sp1_stop hv _) (v := []) (by intro c hc; simp at hc)
          (a := (CE.call o.fn [a.c, b.c]).text) ?_
        rw [form_bin, h2]
        have hd : dropRest (skipWs (x ++ ')' :: r)) = ')' :: r := by rw [skipWs_close hx, dropRest_close]
        simp only [Out.ok_bind, List.nil_append]
        cases o
        case lt => exact absurd (.inl rfl) ho
        case cons => exact absurd (.inr rfl) ho
        all_goals exact congrArg (fun z => Out.ok (_, z)) hd
  | _, _, .un (o := o) (a := a) hu hv sa hw, hg => by
    cases hg with
    | un ga =>
      rename_i u v w s
      have ra := reads sa ga
      intro k r hk hr
      obtain ⟨k, rfl⟩ : ∃ j, k = j + 1 := ⟨k - 1, by omega⟩
      simp only [List.length_append, List.length_cons, List.length_nil] at hk
      simp only [List.cons_append, List.append_assoc, List.nil_append]
      rw [expr_list]
      refine list_word (expr k) k hu (unwords_sym o).1 (unwords_sym o).2 (sp1_stop hv _) hw
        (a := (CE.call o.fn [a.c]).text) ?_
      rw [form_un, one, skipWs_to hv.1 (src_start sa ga), ra k _ (by omega) (sp_stop hw (close_stop _))]
      rw [Out.ok_bind, call1_text]
  | _, _, .ite (c := c) (a := a) (b := b) hu hv sc hw sa hx sb hy, hg => by
    cases hg with
    | ite gc ga gb =>
      rename_i u v w x y s t q
      have rc := reads sc gc
      have ra := reads sa ga
      have rb := reads sb gb
      intro k r hk hr
      obtain ⟨k, rfl⟩ : ∃ j, k = j + 1 := ⟨k - 1, by omega⟩
      simp only [List.length_append, List.length_cons, List.length_nil] at hk
      simp only [List.cons_append, List.append_assoc, List.nil_append]
      rw [expr_list]
      refine list_word (expr k) k hu (w := "if".toList) (by decide) (by decide) (sp1_stop hv _) hy
        (a := (CE.cond c.c a.c b.c).text) ?_
      rw [form_if]
      exact cond_src hv.1 hw hx hy (src_start sc gc) (src_start sa ga) (src_start sb gb) rc ra rb
        (by omega) (by omega) (by omega)
  | _, _, .whn (c := c) (a := a) hu hv sc hw sa hx, hg => by
    cases hg with
    | whn gc ga =>
      rename_i u v w x s t
      have rc := reads sc gc
      have ra := reads sa ga
      intro k r hk hr
      obtain ⟨k, rfl⟩ : ∃ j, k = j + 1 := ⟨k - 1, by omega⟩
      simp only [List.length_append, List.length_cons, List.length_nil] at hk
      simp only [List.cons_append, List.append_assoc, List.nil_append]
      rw [expr_list]
      refine list_word (expr k) k hu (w := "if".toList) (by decide) (by decide) (sp1_stop hv _) (v := [])
        (by intro c hc; simp at hc) (a := (CE.cond c.c a.c nilCall).text) ?_
      rw [form_if]
      exact when_src hv.1 hw hx (src_start sc gc) (src_start sa ga) rc ra (by omega) (by omega)
  | _, _, .letb (xs := xs) (es := es) (b := b) hu hv sb ss, hg => by
    cases hg with
    | letb gx _ ge _ gb =>
      rename_i u v s t
      have rb := readsB sb ge (fun x hx => (gx x hx).1)
      have rs := readsL ss gb
      intro k r hk hr
      obtain ⟨k, rfl⟩ : ∃ j, k = j + 1 := ⟨k - 1, by omega⟩
      simp only [List.length_append, List.length_cons, List.length_nil] at hk
      simp only [List.cons_append, List.append_assoc, List.nil_append]
      rw [expr_list]
      refine list_word (expr k) k hu (w := "let".toList) (by decide) (by decide) (sp_stop hv (open_stop _)) (v := [])
        (by intro c hc; simp at hc) (a := (CE.block xs (cs es) (cs b)).text) ?_
      rw [form_let]
      exact let_src hv rb rs (by omega) (by omega) (by omega) (by omega)
  | _, _, .call (f := f) (as := as) hu ss, hg => by
    cases hg with
    | call hf _ ga =>
      rename_i u s
      have rs := readsL ss ga
      intro k r hk hr
      obtain ⟨k, rfl⟩ : ∃ j, k = j + 1 := ⟨k - 1, by omega⟩
      simp only [List.length_append, List.length_cons, List.length_nil] at hk
      simp only [List.cons_append, List.append_assoc, List.nil_append]
      rw [expr_list]
      have hn := name_chars hf.1
      refine list_word (expr k) k hu (fun c hc => (name_char (hn.1 c hc)).1) hn.2 (srcs_stop ss r) (v := [])
        (by intro c hc; simp at hc) (a := (CE.call f (cs as)).text) ?_
      rw [form_call _ _ hf (srcs_stop ss r), (rs.1 k k r (by omega) (by omega)).1]
      rw [Out.ok_bind, call_text]
      rfl

theorem readsL {fs : List Str} : ∀ {es : List Sx} {t : Str}, Srcs es t → (∀ e ∈ es, Good fs e) → ReadsArgs es t
  | _, _, .nil hu, _ => reads_nil hu
  | _, _, .cons hu se ss, hg =>
    reads_cons hu (src_start se (hg _ (by simp))) (reads se (hg _ (by simp))) ss
      (readsL ss (fun e he => hg e (by simp [he])))

theorem readsB {fs : List Str} : ∀ {xs : List Str} {es : List Sx} {t : Str}, SrcB xs es t →
    (∀ e ∈ es, Good fs e) → (∀ x ∈ xs, Name x) → ReadsBinds xs es t
  | _, _, _, .nil hu, _, _ => binds_nil hu
  | _, _, _, .cons hu hv hw se hy sb, hg, hx =>
    binds_cons (hx _ (by simp)) hu hv hw (src_start se (hg _ (by simp))) (reads se (hg _ (by simp))) hy
      (readsB sb (fun e he => hg e (by simp [he])) (fun x h => hx x (by simp [h])))

end

/-! ## Blocks -/

theorem params_src {ps : List Str} {s : Str} (h : SrcP ps s) (hp : ∀ x ∈ ps, Name x) (first : Bool) (k : Nat)
    (hk : s.length < k) (r : Str) :
    params k first (skipWs (s ++ ')' :: r)) = .ok (paramText first ps, ')' :: r) := by
  induction h generalizing first k with
  | nil hu =>
    obtain ⟨k, rfl⟩ : ∃ j, k = j + 1 := ⟨k - 1, by omega⟩
    rw [skipWs_close hu, params, if_pos (by simp)]
    rfl
  | one hu hv =>
    rename_i x u v
    obtain ⟨k, rfl⟩ : ∃ j, k = j + 1 := ⟨k - 1, by omega⟩
    have hx := hp x (by simp)
    have hl : 0 < x.length := List.length_pos_iff.mpr (name_chars hx).2
    simp only [List.length_append] at hk
    obtain ⟨k, rfl⟩ : ∃ j, k = j + 1 := ⟨k - 1, by omega⟩
    obtain ⟨e1, e2⟩ := name_ends hx (sp_ends hv r)
    rw [List.append_assoc, List.append_assoc, skipWs_to hu (name_start hx), params,
      if_neg (start_guard (name_start hx) _), e1, e2, skipWs_close hv, params, if_pos (by simp)]
    simp only [paramText, Out.ok_bind, List.append_assoc, List.append_nil, List.nil_append, if_true, if_false, Bool.false_eq_true]
  | cons hu hv hs ih =>
    rename_i x y xs u v s
    obtain ⟨k, rfl⟩ : ∃ j, k = j + 1 := ⟨k - 1, by omega⟩
    have hx := hp x (by simp)
    have hl : 0 < x.length := List.length_pos_iff.mpr (name_chars hx).2
    simp only [List.length_append] at hk
    obtain ⟨e1, e2⟩ := name_ends hx (sp1_ends hv (s ++ ')' :: r))
    have := ih (fun x h => hp x (by simp only [List.mem_cons] at h ⊢; exact .inr h)) false k (by omega)
    simp only [List.append_assoc]
    rw [skipWs_to hu (name_start hx), params,
      if_neg (start_guard (name_start hx) _), e1, e2, skipWs_sp hv.1, this]
    simp only [paramText, Out.ok_bind, List.append_assoc, List.append_nil, List.nil_append, if_true, if_false, Bool.false_eq_true]

theorem printString_plain {t : Str} (h : ∀ c ∈ t, c ≠ '"' ∧ c ≠ '\\' ∧ c ≠ '%' ∧ c ≠ '\n') (r : Str) :
    printString (t ++ '"' :: r) = (t, r) := by
  induction t with
  | nil => rfl
  | cons c t ih =>
    obtain ⟨h1, h2, -⟩ := h c (by simp)
    have := ih (fun c hc => h c (by simp [hc]))
    rw [List.cons_append, printString.eq_def]
    split
    · rename_i he; simp at he
    · rename_i he; injection he with he _; exact absurd he h1
    · rename_i he; injection he with he _; exact absurd he h2
    · rename_i he; injection he with he _; exact absurd he h2
    · rename_i he
      injection he with e1 e2
      subst e1 e2
      rw [this]

theorem print_other (ex : Str → Out (Str × Str)) (nl : Bool) {v s r : Str} (hv : Sp v) {c : Char} {s' : Str}
    (hs : s = c :: s') (h1 : isspace c = false) (h2 : c ≠ '"') :
    print ex nl (v ++ (s ++ r)) = (do
      let (a, r) ← ex (s ++ r)
      .ok ("l_print(".toList ++ a ++ ");".toList ++ (if nl then " printf(\"\\n\");".toList else []), r)) := by
  unfold print
  rw [skipWs_sp hv, hs, List.cons_append, skipWs_cons h1]
  split
  · rename_i he; injection he with he _; exact absurd he h2
  · rfl

theorem src_noquote {fs : List Str} {e : Sx} {s : Str} (h : Src e s) (hg : Good fs e) :
    ∃ c r, s = c :: r ∧ isspace c = false ∧ c ≠ '"' := by
  cases h with
  | num =>
    cases hg with
    | num h =>
      cases h with
      | pos hd _ =>
        obtain ⟨v, t, rfl, hv, -⟩ := Forth.dec_head hd
        obtain ⟨-, h1, -, -, h2, -⟩ := isdigit_dec hv
        exact ⟨_, t, rfl, h1, h2⟩
      | neg hd _ => exact ⟨'-', _, rfl, by decide, by decide⟩
  | nil => exact ⟨'n', _, rfl, by decide, by decide⟩
  | sym =>
    cases hg with
    | sym h =>
      have hx := (name_chars h).1
      obtain ⟨⟨c, r, rfl, -⟩, -⟩ := h
      obtain ⟨-, h1, -, -, h2, -⟩ := name_char (hx c (by simp))
      exact ⟨c, r, rfl, h1, h2⟩
  | bin | un | ite | whn | letb | call => exact ⟨'(', _, rfl, by decide, by decide⟩

/-- A statement that is good. -/
def GoodTop (fs : List Str) : Top → Prop
  | .defun f ps b => FName f ∧ (∀ x ∈ ps, Name x) ∧ ∀ e ∈ b, Good fs e
  | .print _ e => Good fs e
  | .puts _ t => ∀ c ∈ t, c ≠ '"' ∧ c ≠ '\\' ∧ c ≠ '%' ∧ c ≠ '\n'
  | .expr e => Good fs e

theorem top_start {fs : List Str} {t : Top} {s : Str} (h : SrcT t s) (hg : GoodTop fs t) : Start s := by
  cases h with
  | defun | print | puts => exact ⟨'(', _, rfl, by decide, by decide⟩
  | expr h => exact src_start h hg

theorem print_word {ex : Str → Out (Str × Str)} {k : Nat} {nl : Bool} {v : Str} (hv : Sp1 v) (r : Str) :
    form ex k (if nl then "println".toList else "print".toList)
      ((if nl then "println".toList else "print".toList) ++ (v ++ r)) (v ++ r) = print ex nl (v ++ r) := by
  cases nl
  · simp only [Bool.false_eq_true, if_false]
    obtain ⟨hv, h0⟩ := hv
    cases v with
    | nil => exact absurd rfl h0
    | cons c v =>
      refine form_print ex k _ (c := c) rfl ?_
      intro e
      have := hv c (by simp)
      rw [e] at this
      exact absurd this (by decide)
  · exact form_println ex k _

theorem reads_top {fs : List Str} {t : Top} {s : Str} (h : SrcT t s) (hg : GoodTop fs t) (k : Nat) (r : Str)
    (hk : s.length < k) (hr : Stop r) : expr k (s ++ r) = .ok (t.c.text, r) := by
  cases h with
  | defun hu hv hw hp hb =>
    rename_i f ps b u v w s t
    obtain ⟨g1, g2, g3⟩ := hg
    have rs := readsL hb g3
    obtain ⟨k, rfl⟩ : ∃ j, k = j + 1 := ⟨k - 1, by omega⟩
    simp only [List.length_append, List.length_cons, List.length_nil] at hk
    simp only [List.cons_append, List.append_assoc, List.nil_append]
    rw [expr_list]
    refine list_word (expr k) k hu (w := "defun".toList) (by decide) (by decide) (sp1_stop hv _) (v := [])
      (by intro c hc; simp at hc) ?_
    rw [form_defun]
    unfold defun
    simp only
    rw [skipWs_to hv.1 (name_start g1.1)]
    have hn := name_chars g1.1
    obtain ⟨e1, e2⟩ := span_append (p := fun c => !isspace c && c ≠ '(') (a := f)
      (r := w ++ '(' :: (s ++ ')' :: (t ++ ')' :: r)))
      (by
        intro c hc
        obtain ⟨-, h1, -, h2, -⟩ := name_char (hn.1 c hc)
        simp [h1, h2])
      (by
        cases w with
        | nil => exact .inr ⟨'(', _, rfl, by decide⟩
        | cons c w => exact .inr ⟨c, _, rfl, by rw [hw c (by simp)]; rfl⟩)
    rw [e1, e2, skipWs_sp hw, skipWs_cons (by decide), if_neg (by simp), List.tail_cons,
      params_src hp g2 true k (by omega)]
    simp only [Out.ok_bind]
    rw [if_neg (by simp), List.tail_cons, rs.2 k k r (by omega) (by omega)]
    rw [Out.ok_bind, Top.c, fn_text]
    simp only [List.append_assoc, List.nil_append]
  | print hu hv se hw =>
    rename_i nl e u v w s
    have re := reads se hg
    obtain ⟨k, rfl⟩ : ∃ j, k = j + 1 := ⟨k - 1, by omega⟩
    simp only [List.length_append, List.length_cons, List.length_nil] at hk
    simp only [List.cons_append, List.append_assoc, List.nil_append]
    rw [expr_list]
    refine list_word (expr k) k hu (w := if nl then "println".toList else "print".toList)
      (by cases nl <;> decide) (by cases nl <;> decide) (sp1_stop hv _) hw ?_
    obtain ⟨c, s', hs, h1, h2⟩ := src_noquote se hg
    rw [print_word hv, print_other _ _ hv.1 hs h1 h2, re k _ (by omega) (sp_stop hw (close_stop _))]
    rw [Out.ok_bind, Top.c, print_text]
  | puts hu hv hw =>
    rename_i nl t u v w
    obtain ⟨k, rfl⟩ : ∃ j, k = j + 1 := ⟨k - 1, by omega⟩
    simp only [List.cons_append, List.append_assoc, List.nil_append]
    rw [expr_list]
    refine list_word (expr k) k hu (w := if nl then "println".toList else "print".toList)
      (by cases nl <;> decide) (by cases nl <;> decide) (sp1_stop hv _) hw ?_
    rw [print_word hv]
    unfold print
    rw [skipWs_sp hv.1, skipWs_cons (by decide)]
    simp only
    rw [printString_plain hg]
    rw [Top.c, puts_text]
  | expr h => exact reads h hg k r hk hr

/-- All statements are good. -/
inductive GoodTops : List Str → List Top → Prop
  | nil {fs} : GoodTops fs []
  | cons {fs gs t ts} : GoodTop gs t → GoodTops fs ts → GoodTops fs (t :: ts)

theorem goodProg_tops {fs : List Str} {ts : List Top} (h : GoodProg fs ts) : GoodTops [] ts := by
  induction h with
  | nil => exact .nil
  | defun hf _ hp _ hb _ ih => exact .cons (gs := _ :: _) ⟨hf, fun x hx => (hp x hx).1, hb⟩ ih
  | print hg _ ih => exact .cons (t := .print _ _) hg ih
  | puts hg _ ih => exact .cons (gs := []) (t := .puts _ _) hg ih
  | expr hg _ ih => exact .cons (t := .expr _) hg ih

theorem tops_src {ts : List Top} {s : Str} (h : SrcProg ts s) (hg : GoodTops [] ts) (k : Nat)
    (hk : s.length + 1 < k) :
    tops k s = .ok ((ts.map Top.c).flatMap (fun s => "    ".toList ++ s.text ++ ";\n".toList)) := by
  induction h generalizing k with
  | nil hu =>
    obtain ⟨k, rfl⟩ : ∃ j, k = j + 1 := ⟨k - 1, by omega⟩
    rename_i u
    have : skipWs u = [] := by
      have := skipWs_sp hu []
      rw [List.append_nil] at this
      rw [this]
      rfl
    rw [tops, this]
    rfl
  | cons hu ht hs hr ih =>
    rename_i t ts u s r
    cases hg with
    | cons g1 g2 =>
      have hst := top_start ht g1
      have hs0 : 0 < s.length := by obtain ⟨c, s, rfl, -⟩ := hst; simp
      obtain ⟨k, rfl⟩ : ∃ j, k = j + 1 := ⟨k - 1, by omega⟩
      simp only [List.length_append] at hk
      have hstop : Stop r := by
        rcases hr with h | ⟨c, r', h, hc⟩
        · exact .inl h
        · right
          refine ⟨c, r', h, ?_⟩
          unfold symChar
          rw [hc]
          rfl
      have h1 := reads_top ht g1 k r (by omega) hstop
      have h2 := ih g2 k (by omega)
      rw [List.append_assoc, tops, skipWs_to hu hst]
      obtain ⟨c, s', rfl, -, hc⟩ := hst
      rw [List.cons_append] at h1 ⊢
      split
      · rename_i he; simp at he
      · rename_i he; injection he with he _; exact absurd he hc
      · rw [h1]
        simp only [Out.ok_bind]
        rw [h2]
        simp

/-- C130, first half: for every text of a block, with any blanks, what the plugin writes is the text of the
C for it. -/
theorem transpile_text {ts : List Top} {s : Str} (h : SrcProg ts s) (hg : GoodProg [] ts) (k : Nat)
    (hk : s.length + 1 < k) : transpile k s = .ok (blockText (ts.map Top.c)) := by
  unfold transpile
  rw [tops_src h (goodProg_tops hg) k hk]
  rfl

end Verif.Lisp
