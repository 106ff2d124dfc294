import Verif.CHeader.Props

/-! # Constants, paths, and what headers do not make known -/

namespace Verif.CHeader

open Forth (isspace)
open Spec

variable {m : Macros} {fs : Str → Option Str}

/-! ## Constants -/

/-- The text of `#define name value`. -/
def defineText (i b1 b2 n text : Str) : Str := i ++ '#' :: (b1 ++ ("define".toList ++ (b2 ++ (n ++ text))))

theorem define_line {b1 b2 n text : Str} (h1 : Blank b1) (h2 : Blank b2) (h2' : b2 ≠ [])
    (hn : Name n) (hm : m.name n = true) {c : Char} {r : Str} (ht : text = c :: r) (hc : isIdent c = false)
    (hp : c ≠ '(') :
    define m (b1 ++ ("define".toList ++ (b2 ++ (n ++ text)))) = some (n, text) := by
  have e1 : skip (b1 ++ ("define".toList ++ (b2 ++ (n ++ text)))) = "define".toList ++ (b2 ++ (n ++ text)) := by
    rw [skip_blank h1]
    exact skip_cons (by decide) _
  have e2 : ("define".toList ++ (b2 ++ (n ++ text))).dropWhile isIdent = b2 ++ (n ++ text) := by
    cases b2 with
    | nil => exact absurd rfl h2'
    | cons b b2 =>
      exact drop_name ⟨by decide +kernel, by decide +kernel⟩ (space_not_ident (h2 b (List.mem_cons_self ..)).1) _
  have e3 : skip (b2 ++ (n ++ text)) = n ++ text := by
    rw [skip_blank h2]
    obtain ⟨hn, hi⟩ := hn
    cases n with
    | nil => exact absurd rfl hn
    | cons d n => exact skip_cons (ident_not_space (hi d (List.mem_cons_self ..))) _
  have e4 : "define".toList.isPrefixOf ("define".toList ++ (b2 ++ (n ++ text))) = true :=
    List.isPrefixOf_iff_prefix.2 ⟨_, rfl⟩
  unfold define
  simp only [e1, e2, e3, e4, if_true]
  rw [ht, take_name hn hc, drop_name hn hc, if_pos ⟨hn.1, hm, by simpa using hp⟩]

theorem toInt_id {v : Int} (h : -2147483648 ≤ v ∧ v < 2147483648) : toInt v = v := by
  unfold toInt
  omega

theorem scanLines_append {inc : Str → St → St} {dir : Str} (a b : List Str) (st : St) :
    scanLines m inc dir (a ++ b) st = scanLines m inc dir b (scanLines m inc dir a st) := by
  induction a generalizing st with
  | nil => rfl
  | cons l a ih => rw [List.cons_append, scanLines, scanLines, ih]

theorem scanLines_le {n : Nat} {dir : Str} (ls : List Str) (st : St) :
    Le st (scanLines m (scan m fs n) dir ls st) :=
  (scanLines_done (I := fun _ => True) (R := Le) (ok := fun _ _ => True) Le.refl Le.trans id
    (fun _ _ h => h) (fun st l _ => ⟨trivial, decl_le st l⟩) (fun st r _ => ⟨trivial, macro_le m st r⟩) _
    (fun _ _ _ _ _ _ st _ => ⟨trivial, scan_le n _ st, trivial⟩) _ trivial).2.1

/-- What a `#define` does. -/
theorem scanLines_define {inc : Str → St → St} {dir : Str} {i b1 b2 n text : Str} (hi : Blank i) (h1 : Blank b1)
    (h2 : Blank b2) (h2' : b2 ≠ []) (hn : Name n) (hm : m.name n = true) {c : Char} {r : Str}
    (ht : text = c :: r) (hc : isIdent c = false) (hp : c ≠ '(') (rest : List Str) {st : St} {v : Int}
    (hv : m.value st.const? text = some v) :
    scanLines m inc dir (defineText i b1 b2 n text :: rest) st =
      scanLines m inc dir rest
        (if (st.const? n).isSome then st else { st with consts := (n, toInt v) :: st.consts }) := by
  have e : skip (defineText i b1 b2 n text) = '#' :: (b1 ++ ("define".toList ++ (b2 ++ (n ++ text)))) := by
    unfold defineText
    rw [skip_blank hi]
    exact skip_cons (by decide) _
  have hx : nested (b1 ++ ("define".toList ++ (b2 ++ (n ++ text)))) = none := by
    unfold nested
    have e1 : skip (b1 ++ ("define".toList ++ (b2 ++ (n ++ text)))) = "define".toList ++ (b2 ++ (n ++ text)) := by
      rw [skip_blank h1]
      exact skip_cons (by decide) _
    rw [e1]
    have : afterWord "include".toList ("define".toList ++ (b2 ++ (n ++ text))) = none := by
      unfold afterWord
      rw [if_neg]
      rintro ⟨h, -⟩
      revert h
      show ¬ (List.isPrefixOf ('i' :: _) ('d' :: _) = true)
      simp [List.isPrefixOf]
    rw [this]
  rw [scanLines, e]
  simp only [hx]
  unfold macroConst
  rw [define_line h1 h2 h2' hn hm ht hc hp]
  simp only [hv]

/-- **Constants have their values.**  A `#define` of a name that has no value yet, whose text is an integer
expression of a value in the range of `int`, makes the name a constant of that value, and it keeps it
through the rest of the header and of what that includes. -/
theorem define_known {path : Str} {pre post : List Str} {i b1 b2 n text : Str}
    (hs : fs path = some (file (pre ++ defineText i b1 b2 n text :: post)))
    (hl : ∀ l ∈ pre ++ defineText i b1 b2 n text :: post, '\n' ∉ l ∧ l.getLast? ≠ some '\\')
    (hi : Blank i) (h1 : Blank b1) (h2 : Blank b2) (h2' : b2 ≠ []) (hn : Name n) (hm : m.name n = true)
    {c : Char} {r : Str} (ht : text = c :: r) (hc : isIdent c = false) (hp : c ≠ '(')
    {st : St} (him : path ∉ st.imported) {st1 : St}
    (h1s : scanLines m (scan m fs 16) (dirOf path) (pre.filter (· ≠ []))
      { st with imported := path :: st.imported, loaded := path :: st.loaded } = st1)
    (hfree : st1.const? n = none) {v : Int} (hv : m.value st1.const? text = some v)
    (hr : -2147483648 ≤ v ∧ v < 2147483648) :
    (includeHeader m fs path st).const? n = some v := by
  unfold includeHeader
  rw [scan, if_neg him, hs]
  simp only [lines_file hl]
  rw [List.filter_append, scanLines_append, h1s,
    List.filter_cons_of_pos (by simp [defineText]), scanLines_define hi h1 h2 h2' hn hm ht hc hp _ hv, if_neg (by simp [hfree])]
  refine (scanLines_le _ _).consts n v ?_
  simp [St.const?, toInt_id hr]

/-- Violation: a constant that is not in the range of `int` gets another value: `#define MASK 0xFFFFFFFF` is
-1 in the program. -/
theorem wide_violated {v : Int} (h : v < -2147483648 ∨ 2147483648 ≤ v) {b1 b2 n text : Str} (h1 : Blank b1)
    (h2 : Blank b2) (h2' : b2 ≠ []) (hn : Name n) (hm : m.name n = true)
    {c : Char} {r : Str} (ht : text = c :: r) (hc : isIdent c = false) (hp : c ≠ '(')
    {st : St} (hfree : st.const? n = none) (hv : m.value st.const? text = some v) :
    ∃ w, (macroConst m st (b1 ++ ("define".toList ++ (b2 ++ (n ++ text))))).const? n = some w ∧ w ≠ v := by
  refine ⟨toInt v, ?_, ?_⟩
  · unfold macroConst
    rw [define_line h1 h2 h2' hn hm ht hc hp]
    simp only [hv]
    rw [if_neg (by simp [hfree])]
    simp [St.const?]
  · unfold toInt
    omega

/-- Violation: the first `#define` of a name is the one that counts, whatever conditions the lines are
under, and whether or not it is undefined and defined again. -/
theorem conditional_violated {i b1 b2 n t1 t2 : Str} (hi : Blank i) (h1 : Blank b1) (h2 : Blank b2) (h2' : b2 ≠ [])
    (hn : Name n) (hm : m.name n = true) {c d : Char} {r1 r2 : Str}
    (ht1 : t1 = c :: r1) (hc : isIdent c = false) (hcp : c ≠ '(')
    (ht2 : t2 = d :: r2) (hd : isIdent d = false) (hdp : d ≠ '(')
    {v1 v2 : Int} (hv1 : ∀ env, m.value env t1 = some v1) (hv2 : ∀ env, m.value env t2 = some v2)
    (hr : -2147483648 ≤ v1 ∧ v1 < 2147483648)
    {guard other : Str} (hg : skip guard = '#' :: other) (hgd : define m other = none) (hgn : nested other = none)
    {inc : Str → St → St} {dir : Str} {st : St} (hfree : st.const? n = none) :
    (scanLines m inc dir
      [defineText i b1 b2 n t1, guard, defineText i b1 b2 n t2] st).const? n = some v1 := by
  rw [scanLines_define hi h1 h2 h2' hn hm ht1 hc hcp _ (hv1 _), if_neg (by simp [hfree])]
  rw [scanLines, hg]
  simp only [hgn]
  have e : ∀ st, macroConst m st other = st := fun st => by unfold macroConst; rw [hgd]
  rw [e, scanLines_define hi h1 h2 h2' hn hm ht2 hd hdp _ (hv2 _), scanLines, if_pos (by simp [St.const?])]
  simp [St.const?, toInt_id hr]

/-- Decimal numerals: an instance of the expression parser. -/
def numerals : Macros :=
  ⟨fun _ t =>
    let d := t.filter (· ≠ ' ')
    if d ≠ [] ∧ d.all (fun c => '0' ≤ c && c ≤ '9') then
      some (d.foldl (fun v c => 10 * v + (c.toNat - 48 : Nat)) 0)
    else none,
    fun _ => true⟩

example : (includeHeader numerals (fun p => if p = "a.h".toList then
      some "int f(void);\n#define SIZE 12\n#define SIZE 13\n  # define X(a) 4\n#defineX Y 5\n".toList else none)
    "a.h".toList start).consts = [("Y".toList, 5), ("SIZE".toList, 12)] := by decide +kernel

example : (includeHeader numerals (fun p => if p = "a.h".toList then
      some "#ifdef WIN\n#define SEP 1\n#else\n#define SEP 2\n#endif\n#define BIG 4294967295\n".toList else none)
    "a.h".toList start).consts = [("BIG".toList, -1), ("SEP".toList, 1)] := by decide +kernel

/-! ## Headers that include headers -/

/-- The directive is read as it is written: `#include "name"`, with blanks anywhere, names the file `name`
if that has at most 255 characters. -/
theorem nested_line {b1 b2 n rest : Str} (h1 : Blank b1) (h2 : Blank b2) (hn : n ≠ []) (hq : '"' ∉ n)
    (hl : n.length ≤ 255) :
    nested (b1 ++ ("include".toList ++ (b2 ++ '"' :: (n ++ '"' :: rest)))) = some n := by
  have e1 : skip (b1 ++ ("include".toList ++ (b2 ++ '"' :: (n ++ '"' :: rest)))) =
      "include".toList ++ (b2 ++ '"' :: (n ++ '"' :: rest)) := by
    rw [skip_blank h1]
    exact skip_cons (by decide) _
  have e2 : afterWord "include".toList ("include".toList ++ (b2 ++ '"' :: (n ++ '"' :: rest))) =
      some (b2 ++ '"' :: (n ++ '"' :: rest)) := by
    cases b2 with
    | nil => exact afterWord_self (by decide) _
    | cons b b2 => exact afterWord_self (space_not_ident (h2 b (List.mem_cons_self ..)).1) _
  have e3 : skip (b2 ++ '"' :: (n ++ '"' :: rest)) = '"' :: (n ++ '"' :: rest) := by
    rw [skip_blank h2]
    exact skip_cons (by decide) _
  have e4 : (n ++ '"' :: rest).takeWhile (· ≠ '"') = n :=
    takeWhile_append_neg (p := fun x => decide (x ≠ '"')) (fun c hc => by
      simp only [ne_eq, decide_not, Bool.not_eq_eq_eq_not, Bool.not_true, decide_eq_false_iff_not]
      rintro rfl
      exact hq hc) (by decide) _
  unfold nested
  rw [e1, e2]
  simp only [e3, e4]
  rw [if_pos]
  · rw [List.take_of_length_le hl]
  · refine ⟨by simp, ?_⟩
    cases n with
    | nil => exact absurd rfl hn
    | cons c n =>
      intro h
      simp only [List.cons_append, List.head?_cons, Option.some.injEq] at h
      exact hq (by rw [h]; exact List.mem_cons_self ..)

/-- A name is taken from the directory of the header that includes it. -/
theorem nestedPath_dir {d b n : Str} (hd : d ≠ []) (hb : '/' ∉ b) (hdl : d.length ≤ 1023) (hnl : n.length ≤ 255) :
    nestedPath (dirOf (d ++ '/' :: b)) n = d ++ '/' :: n := by
  have e : dirOf (d ++ '/' :: b) = d := by
    unfold dirOf
    rw [if_pos (by simp)]
    have : ((d ++ '/' :: b).reverse.dropWhile (· ≠ '/')) = '/' :: d.reverse := by
      have hb' : ∀ c ∈ b.reverse, (decide (c ≠ '/')) = true := by
        intro c hc
        simp only [ne_eq, decide_not, Bool.not_eq_eq_eq_not, Bool.not_true, decide_eq_false_iff_not]
        rintro rfl
        exact hb (List.mem_reverse.1 hc)
      rw [List.reverse_append, List.reverse_cons, List.append_assoc]
      generalize b.reverse = x at hb'
      induction x with
      | nil => simp
      | cons c x ih =>
        rw [List.cons_append, List.dropWhile_cons_of_pos (p := fun x => decide (x ≠ '/')) (hb' c (List.mem_cons_self ..)),
          ih fun d hd => hb' d (List.mem_cons_of_mem _ hd)]
    rw [this]
    simp [List.take_of_length_le hdl]
  unfold nestedPath
  rw [e, if_neg hd, List.take_of_length_le]
  simp only [List.length_append, List.length_cons]
  omega

theorem nestedPath_here {p n : Str} (hp : '/' ∉ p) (hnl : n.length ≤ 255) : nestedPath (dirOf p) n = n := by
  unfold nestedPath dirOf
  rw [if_neg hp, if_pos rfl, List.take_of_length_le (by omega)]

/-- The path of a nested header always fits its buffer. -/
theorem nestedPath_fits (p r n : Str) (h : nested r = some n) :
    ((if dirOf p = [] then n else dirOf p ++ '/' :: n).length < 1280) := by
  have hn : n.length ≤ 255 := by
    unfold nested at h
    split at h
    · cases h
    · split at h
      · split at h
        · cases h
          exact List.length_take_le ..
        · cases h
      · cases h
  have hd : (dirOf p).length ≤ 1023 := by
    unfold dirOf
    split
    · exact List.length_take_le ..
    · simp
  split
  · omega
  · simp only [List.length_append, List.length_cons]
    omega

/-- Violation: a header in the root directory looks for its headers in the current directory. -/
theorem root_violated (b n : Str) (hb : '/' ∉ b) (hnl : n.length ≤ 255) : nestedPath (dirOf ('/' :: b)) n = n := by
  have : dirOf ('/' :: b) = [] := by
    unfold dirOf
    rw [if_pos (List.mem_cons_self ..)]
    have : (('/' :: b).reverse.dropWhile (· ≠ '/')) = ['/'] := by
      have hb' : ∀ c ∈ b.reverse, (decide (c ≠ '/')) = true := by
        intro c hc
        simp only [ne_eq, decide_not, Bool.not_eq_eq_eq_not, Bool.not_true, decide_eq_false_iff_not]
        rintro rfl
        exact hb (List.mem_reverse.1 hc)
      rw [List.reverse_cons]
      generalize b.reverse = x at hb'
      induction x with
      | nil => simp
      | cons c x ih =>
        rw [List.cons_append, List.dropWhile_cons_of_pos (p := fun x => decide (x ≠ '/')) (hb' c (List.mem_cons_self ..)),
          ih fun d hd => hb' d (List.mem_cons_of_mem _ hd)]
    rw [this]
    rfl
  unfold nestedPath
  rw [this, if_pos rfl, List.take_of_length_le (by omega)]

/-- A chain of headers `a`, `aa`, …: each includes the next; the one at `k` declares `int f(void);`, and the
one at 0 also includes that at `s`. -/
def chain (k s : Nat) (p : Str) : Option Str :=
  if p.all (· = 'a') ∧ p ≠ [] ∧ p.length ≤ k + 1 then
    some ((if p.length = k + 1 then "int f(void);\n".toList
      else "#include \"".toList ++ 'a' :: p ++ "\"\n".toList) ++
      (if p.length = 1 then "#include \"".toList ++ List.replicate (s + 1) 'a' ++ "\"\n".toList else []))
  else none

/-- Violation: at the seventeenth level of headers the scan stops, and nothing says so; and as the headers
it stopped at count as read, including them again, from the top, does not help. -/
theorem deep_violated :
    (∃ fs root, Reach fs root (List.replicate 18 'a') ∧ fs (List.replicate 18 'a') = some "int f(void);\n".toList ∧
      "f".toList ∉ (includeHeader numerals fs root start).externs) ∧
    ∃ fs root g, Includes fs root g ∧ Includes fs g (List.replicate 18 'a') ∧
      fs (List.replicate 18 'a') = some "int f(void);\n".toList ∧
      "f".toList ∉ (includeHeader numerals fs root start).externs := by
  have hinc : Includes (chain 17 16) ['a'] (List.replicate 17 'a') := by
    refine ⟨_, "#include \"aaaaaaaaaaaaaaaaa\"".toList, " ".toList.drop 1 ++ "include \"aaaaaaaaaaaaaaaaa\"".toList,
      List.replicate 17 'a', rfl, ?_, ?_, ?_, ?_⟩ <;> decide +kernel
  have hinc2 : Includes (chain 17 16) (List.replicate 17 'a') (List.replicate 18 'a') := by
    refine ⟨_, "#include \"aaaaaaaaaaaaaaaaaa\"".toList, "include \"aaaaaaaaaaaaaaaaaa\"".toList,
      List.replicate 18 'a', rfl, ?_, ?_, ?_, ?_⟩ <;> decide +kernel
  refine ⟨⟨chain 17 16, ['a'], (Reach.refl.step hinc).step hinc2, by decide +kernel, by decide +kernel⟩,
    chain 17 16, ['a'], List.replicate 17 'a', hinc, hinc2, by decide +kernel, by decide +kernel⟩

/-- With one header less all is well. -/
example : "f".toList ∈ (includeHeader numerals (chain 16 0) ['a'] start).externs := by decide +kernel

/-! ## What is not known -/

/-- Violation: a function whose type begins with `struct`, `union`, `enum` or `static` is not known, nor is
one after `typedef`. -/
theorem struct_result_violated {i w : Str} {c : Char} {r : Str} (hi : Blank i) (hw : w ∈ notFirst)
    (hc : isIdent c = false) : funcDecl (i ++ (w ++ c :: r)) = none := funcDecl_leading hi hw hc

/-- Violation: a prototype with anything after its semicolon, such as a comment, is not known; nor is one
that goes over several lines. -/
theorem trailing_violated {l : Str} (h : (l.reverse.dropWhile isspace).head? ≠ some ';') : funcDecl l = none := by
  unfold funcDecl
  simp only
  split
  · rfl
  · rename_i hs
    split
    · rfl
    · split
      · rfl
      · rw [if_pos]
        intro e
        apply h
        have hne : skip l ≠ [] := by
          intro e'
          rw [e'] at hs
          exact hs rfl
        have hl : l = l.takeWhile isspace ++ skip l := (List.takeWhile_append_dropWhile ..).symm
        rw [hl, List.reverse_append, List.dropWhile_append]
        split
        · rename_i h0
          exfalso
          cases hd : (skip l).reverse.dropWhile isspace with
          | nil => rw [hd] at e; cases e
          | cons x y => rw [hd] at h0; cases h0
        · cases hd : (skip l).reverse.dropWhile isspace with
          | nil => rw [hd] at e; cases e
          | cons x y => rw [hd] at e; exact e

/-- Violation: `typedef struct Tag Alias;`, which the comment of the function lists, makes neither the tag
nor the alias known. -/
theorem alias_violated {t a : Str} (ht : Name t) (ha : Name a) :
    let l := "typedef struct ".toList ++ (t ++ ' ' :: (a ++ [';']))
    funcDecl l = none ∧ structDecl l = none := by
  refine ⟨funcDecl_leading (i := []) (w := "typedef".toList) (c := ' ') (fun _ h => by cases h) (by decide +kernel)
    (by decide), ?_⟩
  have h := structDecl_typedef false (i := []) (b1 := [' ']) (c := ' ') (r := t ++ ' ' :: (a ++ [';']))
    (fun _ h => by cases h) (by unfold Blank; decide) (by simp) (by decide)
  refine Eq.trans h ?_
  unfold structDecl.tag
  have e : skip (' ' :: (t ++ ' ' :: (a ++ [';']))) = t ++ ' ' :: (a ++ [';']) := by
    obtain ⟨hn, hi⟩ := ht
    cases t with
    | nil => exact absurd rfl hn
    | cons d t =>
      rw [show skip (' ' :: (d :: t ++ ' ' :: (a ++ [';']))) = skip (d :: t ++ ' ' :: (a ++ [';'])) from rfl]
      exact skip_cons (ident_not_space (hi d (List.mem_cons_self ..))) _
  simp only [e, take_name ht (show isIdent ' ' = false by decide), drop_name ht (show isIdent ' ' = false by decide)]
  rw [if_neg]
  rintro ⟨-, h⟩
  obtain ⟨hn, hi⟩ := ha
  cases a with
  | nil => exact absurd rfl hn
  | cons d a =>
    have hd := hi d (List.mem_cons_self ..)
    rw [show skip (' ' :: (d :: a ++ [';'])) = skip (d :: a ++ [';']) from rfl, List.cons_append,
      skip_cons (ident_not_space hd)] at h
    simp only [List.head?_cons, Option.some.injEq] at h
    rcases h with h | h
    · exact ident_ne hd (by decide) h
    · exact ident_ne hd (by decide) h

/-- Violation: a struct whose brace is on the next line is not known, and an anonymous one neither. -/
theorem brace_violated {i t : Str} (u : Bool) (hi : Blank i) (ht : Name t) :
    structDecl (i ++ (kw u ++ ' ' :: t)) = none ∧
      structDecl (i ++ (kw u ++ " { int x; } ".toList ++ t ++ [';'])) = none := by
  have e1 : i ++ (kw u ++ " { int x; } ".toList ++ t ++ [';']) =
      i ++ (kw u ++ ' ' :: ("{ int x; } ".toList ++ t ++ [';'])) := by
    rw [show " { int x; } ".toList = ' ' :: "{ int x; } ".toList from rfl]
    simp only [List.append_assoc, List.cons_append]
  refine ⟨?_, ?_⟩
  · rw [structDecl_kw u hi (by decide)]
    unfold structDecl.tag
    have e : skip (' ' :: t) = t := by
      obtain ⟨hn, hi⟩ := ht
      cases t with
      | nil => exact absurd rfl hn
      | cons d t =>
        rw [show skip (' ' :: d :: t) = skip (d :: t) from rfl]
        exact skip_cons (ident_not_space (hi d (List.mem_cons_self ..))) _
    have e2 : t.dropWhile isIdent = [] := by
      obtain ⟨-, hi⟩ := ht
      clear e e1
      induction t with
      | nil => rfl
      | cons d t ih =>
        rw [List.dropWhile_cons_of_pos (hi d (List.mem_cons_self ..))]
        exact ih fun x hx => hi x (List.mem_cons_of_mem _ hx)
    simp only [e, e2]
    rw [if_neg]
    rintro ⟨-, h | h⟩ <;> cases h
  · rw [e1, structDecl_kw u hi (by decide)]
    unfold structDecl.tag
    have e : skip (' ' :: ("{ int x; } ".toList ++ t ++ [';'])) = '{' :: (" int x; } ".toList ++ t ++ [';']) := rfl
    simp only [e]
    rw [List.takeWhile_cons_of_neg (by decide), if_neg (fun h => h.1 rfl)]

/-- Violation: lines inside of a comment and lines that the preprocessor leaves out are declarations too:
what is under `#if 0` or between `/*` and `*/` is known like anything else. -/
theorem excluded_violated {p : Proto} (h : p.Ok) (path : Str) {fs : Str → Option Str}
    (hs : fs path = some (file ["#if 0".toList, "/*".toList, p.text, "*/".toList, "#endif".toList])) :
    p.name ∈ (includeHeader m fs path start).externs := by
  unfold includeHeader
  rw [scan, if_neg (by simp [start]), hs]
  have hl := item_line (it := .proto p) h
  have hlines : lines [] (file ["#if 0".toList, "/*".toList, p.text, "*/".toList, "#endif".toList]) =
      ["#if 0".toList, "/*".toList] ++ p.text :: ["*/".toList, "#endif".toList] := by
    rw [lines_file]
    · have : p.text ≠ [] := hl.2.2
      simp [this]
    · intro l hm
      simp only [List.mem_cons, List.not_mem_nil, or_false] at hm
      rcases hm with rfl | rfl | rfl | rfl | rfl
      · decide +kernel
      · decide +kernel
      · exact ⟨hl.1, hl.2.1⟩
      · decide +kernel
      · decide +kernel
  simp only [hlines]
  rw [scanLines_append]
  generalize scanLines m _ _ ["#if 0".toList, "/*".toList] _ = st
  rw [scanLines]
  refine (scanLines_le _ _).externs _ ?_
  split
  · rename_i r e
    exact absurd e (skip_item (it := .proto p) h r)
  · rw [decl_externs, funcDecl_proto h]
    simp

/-- Violation: statements count as declarations, and pointers to functions as none. -/
theorem statement_violated :
    funcDecl "    return helper(x);".toList = some "helper".toList ∧
    funcDecl "int n = sizeof(int);".toList = some "sizeof".toList ∧
    funcDecl "extern void (*hook)(int);".toList = some "void".toList ∧
    funcDecl "int (*hook)(int);".toList = none ∧
    funcDecl "__attribute__((noreturn)) void die(void);".toList = none := by decide +kernel

example : (includeHeader numerals (fun p => if p = "a.h".toList then
      some "struct P *make(void);\nint f(int); // f\nint g(int a,\n      int b);\nint\nh(void);\n".toList else none)
    "a.h".toList start).externs = [] := by decide +kernel

/-! ## The path of an include -/

/-- `include <...>` names what is between the brackets, without blanks, up to 255 characters. -/
theorem system_path {ts : List Str} (buf : Str) (h : (buf ++ ts.flatten).length < 256) :
    systemPath buf (ts.map some) = .ok (buf ++ ts.flatten) := by
  induction ts generalizing buf with
  | nil => simp [systemPath]
  | cons t ts ih =>
    have h' : ((buf ++ t) ++ ts.flatten).length < 256 := by simpa using h
    rw [List.map_cons, systemPath, if_pos, ih _ h']
    · simp
    · rw [List.length_append] at h'; omega

/-- Violation: longer ones are written beyond the buffer. -/
theorem system_long_violated {ts : List Str} (buf : Str) (hb : buf.length < 256)
    (h : 256 ≤ (buf ++ ts.flatten).length) :
    systemPath buf (ts.map some) = .ub := by
  induction ts generalizing buf with
  | nil => simp at h; omega
  | cons t ts ih =>
    rw [List.map_cons, systemPath]
    split
    · rename_i hlt
      exact ih _ hlt (by simpa using h)
    · rfl

/-- Violation: an `include <` without `>` is read for ever. -/
theorem system_open_violated {ts : List Str} (buf : Str) (h : (buf ++ ts.flatten).length < 256)
    (rest : List (Option Str)) :
    systemPath buf (ts.map some ++ none :: rest) = .more := by
  induction ts generalizing buf with
  | nil => simp [systemPath]
  | cons t ts ih =>
    have h' : ((buf ++ t) ++ ts.flatten).length < 256 := by simpa using h
    rw [List.map_cons, List.cons_append, systemPath, if_pos, ih _ h']
    rw [List.length_append] at h'; omega

example : systemPath [] (["sys".toList, "/".toList, "types".toList, ".".toList, "h".toList].map some) =
    .ok "sys/types.h".toList := by decide +kernel

/-- `include "..."` names what is between the quotes. -/
theorem local_path (n : Str) : localPath ('"' :: n ++ ['"']) = .ok n := by
  unfold localPath
  rw [if_neg (by simp)]
  simp

/-- Violation: any other token is taken for a string; one of a single character is copied with a length of
-1, and a name loses its ends. -/
theorem local_other_violated :
    (∀ c, localPath [c] = .ub) ∧ ∀ c n d, localPath (c :: n ++ [d]) = .ok n := by
  refine ⟨fun c => ?_, fun c n d => ?_⟩
  · unfold localPath; rw [if_pos (by simp)]
  · unfold localPath; rw [if_neg (by simp)]; simp

/-! ## The hypotheses are met -/

/-- A prototype. -/
def proto1 : Proto := ⟨"  ".toList, "const char *".toList, "name_of".toList, " ".toList, "int x, int (*f)(void)".toList, " ".toList, " ".toList⟩

theorem proto1_ok : proto1.Ok where
  indent := by unfold Blank; decide +kernel
  type := ⟨'c', "onst char *".toList, rfl, by decide⟩
  first := by decide +kernel
  ends := ⟨'*', by decide +kernel, by decide⟩
  flat := by decide +kernel
  name := by unfold Name; decide +kernel
  free := by decide +kernel
  gap := by unfold Blank; decide +kernel
  params := by decide +kernel
  tail := by decide +kernel
  last := by unfold Blank; decide +kernel

example : proto1.text = "  const char *name_of (int x, int (*f)(void)) ; ".toList := by decide +kernel

/-- A header with a cycle. -/
def cyclic (p : Str) : Option Str :=
  if p = "lib/a.h".toList then
    some "#include \"b.h\"\ntypedef struct node {\n  int x;\n} Node;\n".toList
  else if p = "lib/b.h".toList then some "# include \"a.h\"\n\nextern int g (void);\nunion u;\n".toList
  else none

example : (includeHeader numerals cyclic "lib/a.h".toList start).externs =
      ["Node".toList, "node".toList, "u".toList, "g".toList] ∧
    (includeHeader numerals cyclic "lib/a.h".toList start).aliases =
      [("Node".toList, "Node".toList), ("node".toList, "struct node".toList), ("u".toList, "union u".toList)] ∧
    (includeHeader numerals cyclic "lib/a.h".toList start).loaded = ["lib/b.h".toList, "lib/a.h".toList] := by
  decide +kernel

/-- The two headers are all there are. -/
theorem cyclic_all (k : Str) (h : cyclic k ≠ none) : k ∈ ["lib/a.h".toList, "lib/b.h".toList] := by
  unfold cyclic at h
  split at h
  · rename_i e; rw [e]; exact List.mem_cons_self ..
  · split at h
    · rename_i e; rw [e]; exact List.mem_cons_of_mem _ (List.mem_cons_self ..)
    · exact absurd rfl h

example : "g".toList ∈ (includeAll numerals cyclic ["lib/a.h".toList] start).externs := by
  let g : Proto := ⟨[], "extern int ".toList, "g".toList, " ".toList, "void".toList, [], []⟩
  have hg : g.Ok :=
    { indent := by unfold Blank; decide +kernel
      type := ⟨'e', "xtern int ".toList, rfl, by decide⟩
      first := by decide +kernel
      ends := ⟨' ', by decide +kernel, by decide⟩
      flat := by decide +kernel
      name := by unfold Name; decide +kernel
      free := by decide +kernel
      gap := by unfold Blank; decide +kernel
      params := by decide +kernel
      tail := by decide +kernel
      last := by unfold Blank; decide +kernel }
  have hinc : Includes cyclic "lib/a.h".toList "lib/b.h".toList :=
    ⟨_, "#include \"b.h\"".toList, "include \"b.h\"".toList, "b.h".toList, rfl, by decide +kernel, by decide +kernel,
      by decide +kernel, by decide +kernel⟩
  exact (declared_known (U := ["lib/a.h".toList, "lib/b.h".toList]) (by decide) (fun _ k _ _ h => cyclic_all k h)
    (fun k _ h => cyclic_all k h) (List.mem_cons_self ..) (Reach.refl.step hinc)
    (ls := ["# include \"a.h\"".toList, [], "extern int g (void);".toList, "union u;".toList])
    (by decide +kernel) (by decide +kernel) (it := .proto g) hg (by decide +kernel)).1 _
      (show "g".toList ∈ [g.name] by decide +kernel)

end Verif.CHeader
