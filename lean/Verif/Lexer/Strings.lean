import Verif.Lexer.Cols

/-! # Multi-line, formatted and raw string tokens (C50) -/

namespace Verif.Lexer
open Verif Verif.Str

namespace Spec

/-- the first `"""` of `b"""...` is the one behind `b` -/
def NoTriple (b : List Byte) : Prop := ¬ [34, 34, 34] <:+: b ++ [34, 34]

/-- inside of a raw string with delimiter `q`: a backslash is an ordinary byte, except that it
protects a delimiter right behind it -/
inductive RawInside (q : Byte) : List Byte → Prop
  | nil : RawInside q []
  | plain (c : Byte) (b : List Byte) : c ≠ q → c ≠ 92 → RawInside q b → RawInside q (c :: b)
  | quote (b : List Byte) : RawInside q b → RawInside q (92 :: q :: b)
  | slash (d : Byte) (b : List Byte) : d ≠ q → RawInside q (d :: b) → RawInside q (92 :: d :: b)

end Spec
open Spec

/-! ## multi-line -/

theorem is3_triple (r : List Byte) : is3 (34 :: 34 :: 34 :: r) = .ok true := by
  unfold is3
  rw [rd_lt (by simp), Run.ok_bind, if_neg (by simp), rd_lt (by simp), Run.ok_bind, if_neg (by simp),
    rd_lt (by simp)]
  rfl

theorem is3_inside {c : Byte} {b r : List Byte} (h : NoTriple (c :: b)) :
    is3 (c :: (b ++ 34 :: 34 :: 34 :: r)) = .ok false := by
  obtain ⟨x, hx, ht⟩ := is3_ok (c :: (b ++ 34 :: 34 :: 34 :: r))
  cases x with
  | false => exact hx
  | true =>
      exfalso
      apply h
      unfold is3 at hx
      rw [rd_lt (by simp), Run.ok_bind] at hx
      by_cases h1 : c = 34
      · subst h1
        rw [if_neg (by simp)] at hx
        match b with
        | [] => exact ⟨[], [], rfl⟩
        | [d] =>
            rw [rd_lt (by simp), Run.ok_bind] at hx
            by_cases h2 : d = 34
            · subst h2; exact ⟨[], [34], rfl⟩
            · rw [if_pos (by simpa using h2)] at hx; simp at hx
        | d :: e :: b =>
            rw [rd_lt (by simp), Run.ok_bind] at hx
            by_cases h2 : d = 34
            · subst h2
              rw [if_neg (by simp), rd_lt (by simp)] at hx
              have : e = 34 := by simpa using hx
              subst this
              exact ⟨[], b ++ [34, 34], rfl⟩
            · rw [if_pos (by simpa using h2)] at hx; simp at hx
      · rw [if_pos (by simpa using h1)] at hx; simp at hx

theorem NoTriple.tail {c : Byte} {b : List Byte} (h : NoTriple (c :: b)) : NoTriple b :=
  fun h' => h (h'.trans ⟨[c], [], by simp⟩)

theorem strScan_multi : ∀ (b r : List Byte), NoTriple b →
    strScan true (b ++ 34 :: 34 :: 34 :: r) = .ok b.length
  | [], r, _ => by
      rw [List.nil_append, strScan, stop, if_pos rfl, is3_triple, Run.ok_bind]; rfl
  | c :: b, r, h => by
      have ih := strScan_multi b r (NoTriple.tail h)
      have hf := is3_inside (r := r) h
      rw [List.cons_append]
      cases hb : b ++ 34 :: 34 :: 34 :: r with
      | nil => simp at hb
      | cons d t =>
          rw [strScan, stop, if_pos rfl, ← hb, hf, Run.ok_bind, if_neg (by simp), if_neg (by simp), ih]
          rfl

theorem rawScan_multi (q : Byte) : ∀ (b r : List Byte), NoTriple b →
    rawScan true q (b ++ 34 :: 34 :: 34 :: r) = .ok b.length
  | [], r, _ => by
      rw [List.nil_append, rawScan, stop, if_pos rfl, is3_triple, Run.ok_bind]; rfl
  | c :: b, r, h => by
      have ih := rawScan_multi q b r (NoTriple.tail h)
      have hf := is3_inside (r := r) h
      rw [List.cons_append]
      cases hb : b ++ 34 :: 34 :: 34 :: r with
      | nil => simp at hb
      | cons d t =>
          rw [rawScan, stop, if_pos rfl, ← hb, hf, Run.ok_bind, if_neg (by simp), if_neg (by simp), ih]
          rfl

theorem close_multi (q : Byte) (p b r : List Byte) :
    close true q (p ++ (b ++ 34 :: 34 :: 34 :: r)) (p.length + b.length) = .ok (p.length + b.length + 3) := by
  have hd : (p ++ (b ++ 34 :: 34 :: 34 :: r)).drop (p.length + b.length) = 34 :: 34 :: 34 :: r := by
    rw [← List.drop_drop, List.drop_left, List.drop_left]
  unfold close stop
  rw [hd, if_pos rfl, is3_triple, Run.ok_bind]
  rfl

theorem quoted_multi (off : Nat) (p b r : List Byte) (hp : p.length = off) (hb : NoTriple b) :
    quoted off (p ++ 34 :: 34 :: 34 :: (b ++ 34 :: 34 :: 34 :: r)) = .ok (off + b.length + 6) := by
  subst hp
  have h2 : is2 (p ++ 34 :: 34 :: 34 :: (b ++ 34 :: 34 :: 34 :: r)) (p.length + 1) = .ok true := by
    unfold is2
    rw [rd_lt (by simp), Run.ok_bind, if_neg, rd_lt (by simp; omega)]
    · simp [Nat.add_assoc]
    · simp [List.getElem_append_right]
  have hd : (p ++ 34 :: 34 :: 34 :: (b ++ 34 :: 34 :: 34 :: r)).drop (p.length + 3)
      = b ++ 34 :: 34 :: 34 :: r := by
    rw [← List.drop_drop, List.drop_left]; rfl
  unfold quoted
  rw [h2, Run.ok_bind]
  simp only [if_true, hd, strScan_multi b r hb, Run.ok_bind]
  have e : p ++ 34 :: 34 :: 34 :: (b ++ 34 :: 34 :: 34 :: r)
      = (p ++ [34, 34, 34]) ++ (b ++ 34 :: 34 :: 34 :: r) := by simp
  have el : p.length + 3 + b.length = (p ++ [34, 34, 34]).length + b.length := by simp
  rw [e, el, close_multi]
  simp
  omega

/-- C50: a multi-line string extends exactly to the first `"""` behind its opening one; backslashes
have no effect on where it ends. -/
theorem lex_multi {emit : Bool} {src : List Byte} {f : Nat} {l : Lex} {b rest : List Byte}
    (hle : l.pos ≤ src.length)
    (hs : src.drop l.pos = 34 :: 34 :: 34 :: (b ++ 34 :: 34 :: 34 :: rest)) (hb : NoTriple b) :
    ∃ l', next emit src (f + 1) l
        = .ok (⟨.string, l.pos, b.length + 6, l.line, l.col⟩, l') ∧ l'.pos = l.pos + (b.length + 6) := by
  refine next_raw hle hs (by decide) (by decide) (fun h => absurd h (by decide)) ?_
  have hq := quoted_multi 0 [] b rest rfl hb
  rw [List.nil_append, Nat.zero_add] at hq
  unfold raw
  rw [rd_lt (by simp), Run.ok_bind]
  simp only [List.getElem_cons_zero]
  rw [if_neg (by decide), if_neg (by decide), if_pos trivial, hq]
  rfl

theorem word_one {a : Byte} {r : List Byte} (ha : identChar a = true) :
    span identChar (a :: 34 :: r) = 1 ∧ span identChar (a :: 39 :: r) = 1 := by
  constructor
  · rw [span, if_pos ha, span, if_neg (by decide)]
  · rw [span, if_pos ha, span, if_neg (by decide)]

/-- C50: the same for multi-line formatted strings -/
theorem lex_multi_fstring {emit : Bool} {src : List Byte} {f : Nat} {l : Lex} {b rest : List Byte}
    (hle : l.pos ≤ src.length)
    (hs : src.drop l.pos = 102 :: 34 :: 34 :: 34 :: (b ++ 34 :: 34 :: 34 :: rest)) (hb : NoTriple b) :
    ∃ l', next emit src (f + 1) l
        = .ok (⟨.fstring, l.pos, b.length + 7, l.line, l.col⟩, l') ∧ l'.pos = l.pos + (b.length + 7) := by
  refine next_raw hle hs (by decide) (by decide) (fun h => absurd h (by decide)) ?_
  have hq := quoted_multi 1 [102] b rest rfl hb
  rw [List.cons_append, List.nil_append] at hq
  unfold raw
  rw [rd_lt (by simp), Run.ok_bind]
  simp only [List.getElem_cons_zero]
  have hk : ∀ x : List Byte, keyword ((102 :: x : List Byte).take 1) keywords = none := fun x => by
    show keyword [102] keywords = none
    decide +kernel
  rw [if_pos (by decide), (word_one (by decide)).1, hk]
  dsimp only
  rw [rd_lt (by simp), Run.ok_bind, if_pos (by simp), hq, Run.ok_bind]
  simp
  omega

/-- C50: the same for multi-line raw strings -/
theorem lex_multi_raw {emit : Bool} {src : List Byte} {f : Nat} {l : Lex} {b rest : List Byte}
    (hle : l.pos ≤ src.length)
    (hs : src.drop l.pos = 114 :: 34 :: 34 :: 34 :: (b ++ 34 :: 34 :: 34 :: rest)) (hb : NoTriple b) :
    ∃ l', next emit src (f + 1) l
        = .ok (⟨.rawString, l.pos, b.length + 7, l.line, l.col⟩, l') ∧
      l'.pos = l.pos + (b.length + 7) := by
  refine next_raw hle hs (by decide) (by decide) (fun h => absurd h (by decide)) ?_
  have hq : rawString (114 :: 34 :: 34 :: 34 :: (b ++ 34 :: 34 :: 34 :: rest)) = .ok (b.length + 7) := by
    have h2 : rawMulti 34 (114 :: 34 :: 34 :: 34 :: (b ++ 34 :: 34 :: 34 :: rest)) = .ok true := by
      unfold rawMulti is2
      rw [if_pos rfl, rd_lt (by simp), Run.ok_bind, if_neg (by simp), rd_lt (by simp)]
      simp
    unfold rawString
    rw [rd_lt (by simp), Run.ok_bind]
    simp only [List.getElem_cons_succ, List.getElem_cons_zero, h2, Run.ok_bind, if_true,
      List.drop_succ_cons, List.drop_zero, rawScan_multi 34 b rest hb]
    have := close_multi 34 [114, 34, 34, 34] b rest
    simp only [List.cons_append, List.nil_append, List.length_cons, List.length_nil] at this
    rw [Nat.zero_add] at this
    rw [this]
    congr 1
    omega
  unfold raw
  rw [rd_lt (by simp), Run.ok_bind]
  simp only [List.getElem_cons_zero]
  have hk : ∀ x : List Byte, keyword ((114 :: x : List Byte).take 1) keywords = none := fun x => by
    show keyword [114] keywords = none
    decide +kernel
  rw [if_pos (by decide), (word_one (by decide)).1, hk]
  dsimp only
  rw [rd_lt (by simp), Run.ok_bind, if_neg (by simp), if_pos (by simp), hq, Run.ok_bind]
  rfl

/-- `"""a\"""`: the backslash does not protect the closing quotes; `"""a"b\n""` may stand inside -/
example : NoTriple [97, 92] ∧ NoTriple [97, 34, 98, 92, 34, 34, 99] := by
  unfold NoTriple; decide +kernel

/-! ## one line -/

theorem is2_inside {p b rest : List Byte} (hb : ∀ c, b.head? = some c → c ≠ 34)
    (hm : b = [] → rest.head? ≠ some 34) : is2 (p ++ (b ++ 34 :: rest)) p.length = .ok false := by
  have hlt : p.length < (p ++ (b ++ 34 :: rest)).length := by simp; omega
  unfold is2
  rw [rd_lt hlt, Run.ok_bind]
  cases b with
  | nil =>
      obtain ⟨c, ec, hc⟩ := rd_le (s := p ++ ([] ++ 34 :: rest)) (i := p.length + 1) (by simp)
      rw [if_neg (by simp), ec, Run.ok_bind]
      have : c ≠ 34 := by
        rintro rfl
        obtain ⟨_, h⟩ := rd_ne ec (by decide)
        apply hm rfl
        rw [List.head?_eq_getElem?]
        rw [List.getElem?_append_right (by omega)] at h
        simpa using h
      simp [this]
  | cons c b =>
      rw [if_pos]
      · rfl
      · simpa using hb c rfl

theorem Inside.head {b : List Byte} (h : Inside b) : ∀ c, b.head? = some c → c ≠ 34 := by
  cases h with
  | nil => simp
  | plain c b hc _ _ => intro x hx; simp at hx; subst hx; exact hc
  | pair c b _ => intro x hx; simp at hx; subst hx; decide

/-- C50: a formatted string extends exactly to its first unescaped quote -/
theorem lex_fstring {emit : Bool} {src : List Byte} {f : Nat} {l : Lex} {b rest : List Byte}
    (hle : l.pos ≤ src.length) (hs : src.drop l.pos = 102 :: 34 :: (b ++ 34 :: rest)) (hb : Inside b)
    (hm : b = [] → rest.head? ≠ some 34) :
    ∃ l', next emit src (f + 1) l
        = .ok (⟨.fstring, l.pos, b.length + 3, l.line, l.col⟩, l') ∧ l'.pos = l.pos + (b.length + 3) := by
  refine next_raw hle hs (by decide) (by decide) (fun h => absurd h (by decide)) ?_
  have h2 : is2 (102 :: 34 :: (b ++ 34 :: rest)) 2 = .ok false :=
    is2_inside (p := [102, 34]) (Inside.head hb) hm
  have hq : quoted 1 (102 :: 34 :: (b ++ 34 :: rest)) = .ok (b.length + 3) := by
    unfold quoted
    rw [h2, Run.ok_bind]
    simp only [Bool.false_eq_true, if_false, List.drop_succ_cons, List.drop_zero]
    rw [strScan_inside hb, Run.ok_bind]
    unfold close stop
    have hd : (102 :: 34 :: (b ++ 34 :: rest)).drop (1 + 1 + b.length) = 34 :: rest := by
      rw [show 1 + 1 + b.length = b.length + 1 + 1 by omega, List.drop_succ_cons, List.drop_succ_cons,
        List.drop_left]
    rw [hd, if_neg (by simp), rd_lt (by simp)]
    simp
    omega
  unfold raw
  rw [rd_lt (by simp), Run.ok_bind]
  simp only [List.getElem_cons_zero]
  have hk : ∀ x : List Byte, keyword ((102 :: x : List Byte).take 1) keywords = none := fun x => by
    show keyword [102] keywords = none
    decide +kernel
  rw [if_pos (by decide), (word_one (by decide)).1, hk]
  dsimp only
  rw [rd_lt (by simp), Run.ok_bind, if_pos (by simp), hq, Run.ok_bind]
  rfl

theorem rawScan_inside {q : Byte} (hq : q ≠ 92) {b : List Byte} (h : RawInside q b) (rest : List Byte) :
    rawScan false q (b ++ q :: rest) = .ok b.length := by
  have stopq : ∀ (c : Byte) (r : List Byte), stop false q (c :: r) = .ok (c == q) := by
    intro c r
    unfold stop
    rw [if_neg (by simp), rd_lt (by simp)]; rfl
  induction h with
  | nil =>
      cases rest with
      | nil => rw [List.nil_append, rawScan, stopq, Run.ok_bind]; simp
      | cons x r => rw [List.nil_append, rawScan, stopq, Run.ok_bind]; simp
  | plain c b hc hc2 _ ih =>
      cases hb : b ++ q :: rest with
      | nil => simp at hb
      | cons d r =>
          rw [List.cons_append, hb, rawScan, stopq, Run.ok_bind, if_neg (by simpa using hc),
            if_neg (by simp [hc2]), ← hb, ih]
          rfl
  | quote b _ ih =>
      rw [List.cons_append, List.cons_append, rawScan, stopq, Run.ok_bind,
        if_neg (by simpa using Ne.symm hq), if_pos (by simp), ih]
      rfl
  | slash d b hd _ ih =>
      rw [List.cons_append] at ih
      rw [List.cons_append, List.cons_append, rawScan, stopq, Run.ok_bind,
        if_neg (by simpa using Ne.symm hq), if_neg (by simp [hd]), ih]
      rfl

theorem RawInside.head {q : Byte} (hq : q ≠ 92) {b : List Byte} (h : RawInside q b) :
    ∀ c, b.head? = some c → c ≠ q := by
  cases h with
  | nil => simp
  | plain c b hc _ _ => intro x hx; simp at hx; subst hx; exact hc
  | quote b _ => intro x hx; simp at hx; subst hx; exact Ne.symm hq
  | slash d b _ _ => intro x hx; simp at hx; subst hx; exact Ne.symm hq

/-- C50: a raw string, in double or single quotes, extends exactly to the first delimiter that does
not stand right behind a backslash of its own -/
theorem lex_raw_string {emit : Bool} {src : List Byte} {f : Nat} {l : Lex} {q : Byte}
    {b rest : List Byte} (hq : q = 34 ∨ q = 39) (hle : l.pos ≤ src.length)
    (hs : src.drop l.pos = 114 :: q :: (b ++ q :: rest)) (hb : RawInside q b)
    (hm : q = 34 → b = [] → rest.head? ≠ some 34) :
    ∃ l', next emit src (f + 1) l
        = .ok (⟨.rawString, l.pos, b.length + 3, l.line, l.col⟩, l') ∧
      l'.pos = l.pos + (b.length + 3) := by
  have hq92 : q ≠ 92 := by rcases hq with rfl | rfl <;> decide
  refine next_raw hle hs (by decide) (by decide) (fun h => absurd h (by decide)) ?_
  have h2 : rawMulti q (114 :: q :: (b ++ q :: rest)) = .ok false := by
    unfold rawMulti
    rcases hq with rfl | rfl
    · rw [if_pos rfl]
      exact is2_inside (p := [114, 34]) (RawInside.head hq92 hb) (hm rfl)
    · rw [if_neg (by decide)]; rfl
  have hr : rawString (114 :: q :: (b ++ q :: rest)) = .ok (b.length + 3) := by
    unfold rawString
    rw [rd_lt (by simp), Run.ok_bind]
    simp only [List.getElem_cons_succ, List.getElem_cons_zero, h2, Run.ok_bind, Bool.false_eq_true,
      if_false, List.drop_succ_cons, List.drop_zero, rawScan_inside hq92 hb rest]
    unfold close stop
    have hd : (114 :: q :: (b ++ q :: rest)).drop (2 + b.length) = q :: rest := by
      rw [show 2 + b.length = b.length + 1 + 1 by omega, List.drop_succ_cons, List.drop_succ_cons,
        List.drop_left]
    rw [hd, if_neg (by simp), rd_lt (by simp)]
    simp
    omega
  unfold raw
  rw [rd_lt (by simp), Run.ok_bind]
  simp only [List.getElem_cons_zero]
  have hk : ∀ x : List Byte, keyword ((114 :: x : List Byte).take 1) keywords = none := fun x => by
    show keyword [114] keywords = none
    decide +kernel
  have hsp : span identChar (114 :: q :: (b ++ q :: rest)) = 1 := by
    rcases hq with rfl | rfl
    · exact (word_one (by decide)).1
    · exact (word_one (by decide)).2
  rw [if_pos (by decide), hsp, hk]
  dsimp only
  rw [rd_lt (by simp), Run.ok_bind, if_neg (by simp), if_pos (by simpa using hq), hr, Run.ok_bind]
  rfl

/-- `r"\d\"x"`: the inside -/
example : RawInside 34 [92, 100, 92, 34, 120] :=
  .slash _ _ (by decide) (.plain _ _ (by decide) (by decide) (.quote _ (.plain _ _ (by decide) (by decide) .nil)))

end Verif.Lexer
