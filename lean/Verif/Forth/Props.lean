import Verif.Forth.Lemmas

/-!
# What holds of the Forth plugin

C126 arithmetic, C127 conditionals and loops, C128 definitions, C129 memory.
-/

namespace Verif.Forth

open Spec

/-! ## C126: arithmetic -/

theorem builtin_none {t : Str} (h : ∀ p ∈ table, t ≠ p.1) : builtin t = none := by
  unfold builtin
  rw [List.lookup_eq_none_iff]
  intro p hp
  simpa using h p hp

theorem table_heads : ∀ p ∈ table, ∀ v, v < 10 → p.1.head? ≠ some (Char.ofNat (48 + v)) := by
  decide +kernel

theorem dec_head {s : Str} {n : Nat} (h : Dec s n) :
    ∃ v r, s = Char.ofNat (48 + v) :: r ∧ v < 10 ∧ (v = 0 → r = [] ∧ n = 0) := by
  induction h with
  | one hv => exact ⟨_, [], rfl, hv, fun h => ⟨rfl, h⟩⟩
  | snoc _ hn hv ih =>
    obtain ⟨v, r, rfl, h1, h2⟩ := ih
    refine ⟨v, _, List.cons_append, h1, ?_⟩
    intro h
    have := (h2 h).2
    omega

theorem digit_ofNat : ∀ v, v < 10 → digit (Char.ofNat (48 + v)) = some v := by decide +kernel

theorem digits_append (b : Nat) (s : Str) (c : Char) (a : Nat) :
    digits b (s ++ [c]) a = match digits b s a with
      | some m => digits b [c] m
      | none => none := by
  induction s generalizing a with
  | nil => rfl
  | cons x s ih =>
    rw [List.cons_append, digits, digits]
    cases digit x with
    | none => rfl
    | some d =>
      simp only
      split
      · exact ih _
      · rfl

theorem dec_digits {s : Str} {n : Nat} (h : Dec s n) : digits 10 s 0 = some n := by
  induction h with
  | one hv =>
    rename_i v
    simp [digits, digit_ofNat v hv, hv]
  | snoc _ _ hv ih =>
    rename_i v _ _
    rw [digits_append, ih]
    simp [digits, digit_ofNat v hv, hv]

theorem dec_chars {s : Str} {n : Nat} (h : Dec s n) : ∀ c ∈ s, ∃ v, v < 10 ∧ c = Char.ofNat (48 + v) := by
  induction h with
  | one hv =>
    intro c hc
    exact ⟨_, hv, List.mem_singleton.mp hc⟩
  | snoc _ _ hv ih =>
    intro c hc
    rcases List.mem_append.mp hc with hc | hc
    · exact ih c hc
    · exact ⟨_, hv, List.mem_singleton.mp hc⟩

theorem digit_char : ∀ v, v < 10 → blank (Char.ofNat (48 + v)) = false ∧ Char.ofNat (48 + v) ≠ '.' ∧
    isspace (Char.ofNat (48 + v)) = false ∧ Char.ofNat (48 + v) ≠ '-' ∧
    Char.ofNat (48 + v) ≠ '+' := by decide +kernel

theorem digit_zero : ∀ v, v < 10 → Char.ofNat (48 + v) = '0' → v = 0 := by decide +kernel

theorem dec_tok {s : Str} {n : Nat} (h : Dec s n) : IsTok s := by
  obtain ⟨v, r, e, -, -⟩ := (dec_head h)
  refine ⟨by rw [e]; simp, ?_⟩
  intro c hc
  obtain ⟨v, hv, rfl⟩ := dec_chars h c hc
  exact (digit_char v hv).1

theorem magnitude_other {c : Char} (h : c ≠ '0') (r : Str) : magnitude (c :: r) = number 10 (c :: r) := by
  unfold magnitude
  split
  · rename_i he; injection he with he _; exact absurd he h
  · rename_i he; injection he with he _; exact absurd he h
  · rename_i he; injection he with he _; exact absurd he h
  · rfl

theorem strtol_head {c : Char} (h1 : isspace c = false) (h2 : c ≠ '-') (h3 : c ≠ '+') (r : Str) :
    strtol (c :: r) = (magnitude (c :: r)).map (fun n => clamp n) := by
  unfold strtol
  have : List.dropWhile isspace (c :: r) = c :: r := by
    rw [List.dropWhile_cons, if_neg (by simp [h1])]
  rw [this]
  split
  · rename_i he; injection he with he _; exact absurd he h2
  · rename_i he; injection he with he _; exact absurd he h3
  · rfl

theorem dec_strtol {s : Str} {n : Nat} (h : Dec s n) (hr : Range n) : strtol s = some n := by
  obtain ⟨v, r, e, hv, h0⟩ := (dec_head h)
  obtain ⟨-, -, c1, c2, c3⟩ := digit_char v hv
  have hd := dec_digits h
  have hc : clamp (n : Int) = n := by
    unfold clamp
    unfold Range at hr
    rw [if_neg (by omega), if_neg (by omega)]
  rw [e, strtol_head c1 c2 c3, ← e]
  by_cases hz : v = 0
  · obtain ⟨hr', hn⟩ := h0 hz
    subst hr' hn hz
    rw [e]
    decide +kernel
  · have : magnitude s = some n := by
      rw [e, magnitude_other (fun hh => hz (digit_zero v hv hh)), ← e]
      rw [e] at hd ⊢
      exact hd
    rw [this]
    simp [hc]

theorem dec_builtin {s : Str} {n : Nat} (h : Dec s n) : builtin s = none := by
  obtain ⟨v, r, e, hv, -⟩ := (dec_head h)
  apply builtin_none
  intro p hp he
  apply table_heads p hp v hv
  rw [← he, e]
  rfl

/-- A numeral is pushed. -/
theorem eval_numeral (E : Fl) (f : Str → St → Out St) {s : Str} {n : Nat} (h : Dec s n) (hr : Range n)
    (r : Str) (st : St) : eval E f s r st = .ok (r, push n st) := by
  unfold eval
  rw [dec_builtin h]
  simp only
  unfold other
  have hd : '.' ∉ s := by
    intro hc
    obtain ⟨v, hv, e⟩ := dec_chars h _ hc
    exact (digit_char v hv).2.1 e.symm
  rw [if_neg hd]
  simp only
  rw [dec_strtol h hr]
  rfl

/-- The words that are treated on their own. -/
def special : Word → Bool
  | .if' | .else' | .comment | .do' | .dotq | .squote | .var | .const => true
  | _ => false

theorem eval_plain (E : Fl) (f : Str → St → Out St) {t : Str} {w : Word} (h : builtin t = some w)
    (hw : special w = false) (r : Str) (s : St) :
    eval E f t r s = (do .ok (r, ← plain E w s)) := by
  unfold eval
  rw [h]
  cases w <;> first | rfl | exact absurd hw (by simp [special])

/-- The word of an operator. -/
def opWord : Op → Word
  | .add => .add
  | .sub => .sub
  | .mul => .mul
  | .div => .div
  | .mod => .mod
  | .eq => .eq
  | .gt => .gt
  | .lt => .lt

theorem op_builtin (o : Op) : builtin o.name = some (opWord o) ∧ special (opWord o) = false := by
  cases o <;> decide +kernel

theorem op_tok (o : Op) : IsTok o.name := by
  cases o <;> exact ⟨by decide, by decide⟩

theorem long_range {n : Int} (h : Range n) : long n = .ok n := by
  unfold long
  rw [if_pos (by exact h)]

theorem push_ok {s : St} (h : s.stack.length < 256) (v : Int) :
    push v s = { s with stack := v :: s.stack } := by
  unfold push
  rw [if_pos h]

theorem binary_two (f : Int → Int → Out Int) (a b : Int) (s : St) (st : List Int)
    (hl : st.length < 256) :
    binary f { s with stack := b :: a :: st } = (do .ok { s with stack := (← f a b) :: st }) := by
  have hp : ∀ v, push v (rest (rest { s with stack := b :: a :: st })) = { s with stack := v :: st } :=
    fun v => push_ok (s := { s with stack := st }) hl v
  unfold binary
  simp only [hp]
  rfl

/-- An operator takes two numbers and leaves one. -/
theorem plain_op (E : Fl) (o : Op) {a b : Int} (hr : Range (o.den a b))
    (hz : (o = .div ∨ o = .mod) → b ≠ 0 ∧ Range (a.tdiv b)) (s : St) (st : List Int)
    (hl : st.length < 256) :
    plain E (opWord o) { s with stack := b :: a :: st } = .ok { s with stack := o.den a b :: st } := by
  cases o with
  | add => simp only [opWord, plain, binary_two _ a b s st hl]; simp only [Op.den] at hr ⊢; rw [long_range hr]; rfl
  | sub => simp only [opWord, plain, binary_two _ a b s st hl]; simp only [Op.den] at hr ⊢; rw [long_range hr]; rfl
  | mul => simp only [opWord, plain, binary_two _ a b s st hl]; simp only [Op.den] at hr ⊢; rw [long_range hr]; rfl
  | div =>
    obtain ⟨h0, -⟩ := hz (.inl rfl)
    simp only [opWord, plain, binary_two _ a b s st hl]
    simp only [Op.den] at hr ⊢
    rw [if_neg (by exact h0), long_range hr]
    rfl
  | mod =>
    obtain ⟨h0, h1⟩ := hz (.inr rfl)
    simp only [opWord, plain, binary_two _ a b s st hl]
    rw [if_neg (by exact h0), long_range h1]
    rfl
  | eq => simp only [opWord, plain, binary_two _ a b s st hl, Op.den, truth, Out.ok_bind, decide_eq_true_eq]
  | gt => simp only [opWord, plain, binary_two _ a b s st hl, Op.den, truth, Out.ok_bind, decide_eq_true_eq]
  | lt => simp only [opWord, plain, binary_two _ a b s st hl, Op.den, truth, Out.ok_bind, decide_eq_true_eq]

theorem run_word (E : Fl) {t : Str} (ht : IsTok t) {w : Word} (h : builtin t = some w)
    (hw : special w = false) (r : Str) (k : Nat) (s : St) :
    run E (k + 1) (t ++ ' ' :: r) s = (do run E k r (← plain E w s)) := by
  rw [run_tok E ht, eval_plain E _ h hw]
  cases plain E w s <;> rfl

/-- C126: the postfix form of an expression pushes its value, and does nothing else, if nothing is
divided by zero, all values are in the range of `long`, and the stack has room. -/
theorem postfix_value (E : Fl) (e : Ex) (h : e.Good) (s : St)
    (hn : s.stack.length + e.need ≤ 256) (r : Str) (k : Nat) :
    run E (k + e.post.length) (text e.post ++ r) s = run E k r { s with stack := e.val :: s.stack } := by
  induction e generalizing s r k with
  | num t n =>
    simp only [Ex.post, List.length_singleton]
    rw [text_cons, run_tok E (dec_tok h.1), eval_numeral E _ h.1 h.2]
    simp only [Out.ok_bind]
    simp only [Ex.need] at hn
    rw [push_ok (by omega)]
    rfl
  | bin o a b iha ihb =>
    obtain ⟨ha, hb, hr, hz⟩ := h
    simp only [Ex.need] at hn
    simp only [Ex.post, List.length_append, List.length_singleton, text_append, List.append_assoc]
    rw [show k + (a.post.length + (b.post.length + 1)) = k + 1 + b.post.length + a.post.length by omega,
      iha ha s (by omega), ihb hb _ (by simp; omega)]
    simp only
    rw [show text [o.name] ++ r = o.name ++ ' ' :: r by simp [text],
      run_word E (op_tok o) (op_builtin o).1 (op_builtin o).2]
    have := plain_op E o hr hz s s.stack (by omega)
    rw [this]
    rfl
  | choose c a b ihc iha ihb =>
    obtain ⟨hc, ha, hb⟩ := h
    simp only [Ex.need] at hn
    simp only [Ex.post, List.length_append, List.length_singleton, text_append, List.append_assoc]
    rw [show k + (c.post.length + (a.post.length + (b.post.length + 1))) =
        k + 1 + b.post.length + a.post.length + c.post.length by omega,
      ihc hc s (by omega), iha ha _ (by simp; omega), ihb hb _ (by simp; omega)]
    simp only
    rw [show text ["choose".toList] ++ r = "choose".toList ++ ' ' :: r by simp [text],
      run_word E (w := .choose) ⟨by decide, by decide⟩ (by decide +kernel) rfl]
    simp only [plain, Out.ok_bind]
    congr 1
    have hp : ∀ v, push v (rest (rest (rest { s with stack := b.val :: a.val :: c.val :: s.stack }))) =
        { s with stack := v :: s.stack } := by
      intro v
      exact push_ok (s := s) (by omega) v
    rw [hp]
    rfl

/-- C126, violated: division by zero takes only the divisor: what is divided stays below the 0. -/
theorem div_zero_violated (E : Fl) (s : St) (a : Int) (st : List Int) (hl : st.length < 255) (r : Str)
    (k : Nat) :
    run E (k + 1) ("/".toList ++ ' ' :: r) { s with stack := 0 :: a :: st } =
      run E k r { s with stack := 0 :: a :: st } := by
  rw [run_word E (w := .div) ⟨by decide, by decide⟩ (by decide +kernel) rfl]
  simp only [plain]
  rw [if_pos (by rfl)]
  simp only [Out.ok_bind]
  congr 1
  exact push_ok (s := { s with stack := a :: st }) (by simp; omega) 0

/-- C126, violated: so does the remainder. -/
theorem mod_zero_violated (E : Fl) (s : St) (a : Int) (st : List Int) (hl : st.length < 255) (r : Str)
    (k : Nat) :
    run E (k + 1) ("%".toList ++ ' ' :: r) { s with stack := 0 :: a :: st } =
      run E k r { s with stack := 0 :: a :: st } := by
  rw [run_word E (w := .mod) ⟨by decide, by decide⟩ (by decide +kernel) rfl]
  simp only [plain]
  rw [if_pos (by rfl)]
  simp only [Out.ok_bind]
  congr 1
  exact push_ok (s := { s with stack := a :: st }) (by simp; omega) 0

/-- C126, violated: on a full stack numbers are lost without a word. -/
theorem full_stack_violated (E : Fl) {t : Str} {n : Nat} (h : Dec t n) (hr : Range n) (s : St)
    (hs : s.stack.length = 256) (r : Str) (k : Nat) :
    run E (k + 1) (t ++ ' ' :: r) s = run E k r s := by
  rw [run_tok E (dec_tok h), eval_numeral E _ h hr]
  simp only [Out.ok_bind]
  congr 1
  unfold push
  rw [if_neg (by omega)]

theorem octal_lt {s : Str} {n : Nat} (h : Dec s n) {m : Nat} (hm : digits 8 s 0 = some m) :
    m ≤ n ∧ (8 ≤ n → m < n) := by
  induction h generalizing m with
  | one hv =>
    rename_i v
    simp [digits, digit_ofNat v hv] at hm
    omega
  | snoc hd hn hv ih =>
    rename_i s n v
    rw [digits_append] at hm
    cases hx : digits 8 s 0 with
    | none => rw [hx] at hm; simp at hm
    | some m' =>
      rw [hx] at hm
      simp [digits, digit_ofNat v hv] at hm
      have := (ih hx).1
      omega

/-- C126, violated: a numeral with a 0 before it is octal, or text. -/
theorem leading_zero_violated {s : Str} {n : Nat} (h : Dec s n) (hn : 8 ≤ n) :
    strtol ('0' :: s) ≠ some (n : Int) := by
  obtain ⟨v, r, e, hv, -⟩ := (dec_head h)
  rw [strtol_head (by decide) (by decide) (by decide)]
  have hm : magnitude ('0' :: s) = digits 8 s 0 := by
    rw [e]
    unfold magnitude
    have hx : ∀ v, v < 10 → Char.ofNat (48 + v) ≠ 'x' ∧ Char.ofNat (48 + v) ≠ 'X' := by decide +kernel
    split
    · rename_i he
      injection he with _ he
      injection he with he _
      exact absurd he (hx v hv).1
    · rename_i he
      injection he with _ he
      injection he with he _
      exact absurd he (hx v hv).2
    · rename_i he
      injection he with _ he
      rw [he]
    · rename_i h1
      exact absurd rfl (h1 _)
  rw [hm]
  cases hx : digits 8 s 0 with
  | none => simp
  | some m =>
    have := (octal_lt h hx).2 hn
    intro he
    have he : some (clamp (m : Int)) = some (n : Int) := he
    injection he with he
    unfold clamp at he
    split at he
    · omega
    · split at he <;> omega

/-! ## C127: conditionals and loops -/

/-- The words with which programs are structured. -/
def controls : List Str :=
  ["if".toList, "else".toList, "then".toList, "do".toList, "loop".toList]

/-- The words of a program: tokens other than these, which do what `M` says. -/
def Meant (E : Fl) (M : Str → St → Out St) (w : Str) : Prop :=
  IsTok w ∧ w ∉ controls ∧
    ∀ f r s, eval E f w r s = (do .ok (r, ← M w s))

/-- All the words of a program. -/
def Means (E : Fl) (M : Str → St → Out St) : Prog → Prop
  | .skip => True
  | .word w => Meant E M w
  | .seq p q => Means E M p ∧ Means E M q
  | .ift p => Means E M p
  | .ifte p q => Means E M p ∧ Means E M q
  | .loop p => Means E M p

/-- After this outcome, the rest is run. -/
def Then (E : Fl) : Out St → Str → Out St → Prop
  | .ok s, r, o => Runs E r s o
  | .exit, _, o => o = .exit
  | .ub, _, o => o = .ub
  | .more, _, _ => False

theorem control_tok : ∀ w ∈ controls, IsTok w := by
  intro w hw
  simp only [controls, List.mem_cons, List.not_mem_nil, or_false] at hw
  rcases hw with rfl | rfl | rfl | rfl | rfl <;> exact ⟨by decide, by decide⟩

theorem words_tok (E : Fl) (M : Str → St → Out St) (p : Prog) (h : Means E M p) :
    ∀ w ∈ p.words, IsTok w := by
  induction p with
  | skip => intro w hw; simp [Prog.words] at hw
  | word w => intro x hx; rw [List.mem_singleton.mp hx]; exact h.1
  | seq p q ihp ihq =>
    intro w hw
    rcases List.mem_append.mp hw with hw | hw
    · exact ihp h.1 w hw
    · exact ihq h.2 w hw
  | ift p ih =>
    intro w hw
    simp only [Prog.words, List.cons_append, List.mem_cons, List.mem_append, List.not_mem_nil,
      or_false] at hw
    rcases hw with rfl | hw | rfl
    · exact control_tok _ (by simp [controls])
    · exact ih h w hw
    · exact control_tok _ (by simp [controls])
  | ifte p q ihp ihq =>
    intro w hw
    simp only [Prog.words, List.cons_append, List.mem_cons, List.mem_append, List.not_mem_nil,
      or_false] at hw
    rcases hw with rfl | (hw | rfl | hw) | rfl
    · exact control_tok _ (by simp [controls])
    · exact ihp h.1 w hw
    · exact control_tok _ (by simp [controls])
    · exact ihq h.2 w hw
    · exact control_tok _ (by simp [controls])
  | loop p ih =>
    intro w hw
    simp only [Prog.words, List.cons_append, List.mem_cons, List.mem_append, List.not_mem_nil,
      or_false] at hw
    rcases hw with rfl | hw | rfl
    · exact control_tok _ (by simp [controls])
    · exact ih h w hw
    · exact control_tok _ (by simp [controls])

/-- A program without conditionals has none of their words. -/
theorem flat_words (E : Fl) (M : Str → St → Out St) (p : Prog) (h : Means E M p) (hf : p.flat = true) :
    ∀ w ∈ p.words, w ≠ "then".toList ∧ w ≠ "else".toList := by
  induction p with
  | skip => intro w hw; simp [Prog.words] at hw
  | word w =>
    intro x hx
    rw [List.mem_singleton.mp hx]
    have := h.2.1
    constructor
    · intro e; apply this; rw [e]; simp [controls]
    · intro e; apply this; rw [e]; simp [controls]
  | seq p q ihp ihq =>
    intro w hw
    simp only [Prog.flat, Bool.and_eq_true] at hf
    rcases List.mem_append.mp hw with hw | hw
    · exact ihp h.1 hf.1 w hw
    · exact ihq h.2 hf.2 w hw
  | ift p ih => simp [Prog.flat] at hf
  | ifte p q ihp ihq => simp [Prog.flat] at hf
  | loop p ih =>
    intro w hw
    simp only [Prog.words, List.cons_append, List.mem_cons, List.mem_append, List.not_mem_nil,
      or_false] at hw
    rcases hw with rfl | hw | rfl
    · decide
    · exact ih h hf w hw
    · decide

theorem flat_simple (p : Prog) (h : p.flat = true) : p.simple = true := by
  induction p with
  | skip => rfl
  | word w => rfl
  | seq p q ihp ihq =>
    simp only [Prog.flat, Bool.and_eq_true] at h
    simp only [Prog.simple, Bool.and_eq_true]
    exact ⟨ihp h.1, ihq h.2⟩
  | ift p ih => simp [Prog.flat] at h
  | ifte p q ihp ihq => simp [Prog.flat] at h
  | loop p ih => exact ih h

theorem findLoop_other {w : Str} (h : IsTok w) (h1 : w ≠ "do".toList) (h2 : w ≠ "loop".toList)
    (r : Str) (d : Nat) : findLoop (w ++ ' ' :: r) d = findLoop r d := by
  rw [findLoop_tok h, if_neg h2, if_neg h1]

theorem findLoop_do (r : Str) (d : Nat) :
    findLoop ("do".toList ++ ' ' :: r) d = findLoop r (d + 1) := by
  rw [findLoop_tok (control_tok _ (by simp [controls])), if_neg (by decide), if_pos rfl]

theorem findLoop_loop (r : Str) (d : Nat) :
    findLoop ("loop".toList ++ ' ' :: r) (d + 1) = findLoop r d ∧
      findLoop ("loop".toList ++ ' ' :: r) 0 = some r := by
  constructor
  · have e : (if "loop".toList = "do".toList then d + 1 + 1 else d + 1) = d + 1 := if_neg (by decide)
    rw [findLoop_tok (control_tok _ (by simp [controls])), if_pos rfl, e, if_neg (by omega)]
    rfl
  · have e : (if "loop".toList = "do".toList then 0 + 1 else 0) = 0 := if_neg (by decide)
    rw [findLoop_tok (control_tok _ (by simp [controls])), if_pos rfl, e, if_pos rfl]

theorem text_nil (r : Str) : text [] ++ r = r := rfl

theorem one_word (w : Str) (r : Str) : text [w] ++ r = w ++ ' ' :: r := by simp [text]

/-- The loops of a program are nested, so the search goes past them. -/
theorem findLoop_words (E : Fl) (M : Str → St → Out St) (p : Prog) (h : Means E M p) (r : Str) (d : Nat) :
    findLoop (text p.words ++ r) d = findLoop r d := by
  induction p generalizing r d with
  | skip => rfl
  | word w =>
    have h1 : w ≠ "do".toList := by intro e; apply h.2.1; rw [e]; simp [controls]
    have h2 : w ≠ "loop".toList := by intro e; apply h.2.1; rw [e]; simp [controls]
    simp only [Prog.words, one_word]
    exact findLoop_other h.1 h1 h2 r d
  | seq p q ihp ihq =>
    simp only [Prog.words, text_append, List.append_assoc]
    rw [ihp h.1, ihq h.2]
  | ift p ih =>
    simp only [Prog.words, List.cons_append, text_cons, text_append, List.append_assoc, text_nil]
    rw [findLoop_other (control_tok _ (by simp [controls])) (by decide) (by decide), ih h,
      findLoop_other (control_tok _ (by simp [controls])) (by decide) (by decide)]
  | ifte p q ihp ihq =>
    simp only [Prog.words, List.cons_append, text_cons, text_append, List.append_assoc, text_nil]
    rw [findLoop_other (control_tok _ (by simp [controls])) (by decide) (by decide), ihp h.1,
      findLoop_other (control_tok _ (by simp [controls])) (by decide) (by decide), ihq h.2,
      findLoop_other (control_tok _ (by simp [controls])) (by decide) (by decide)]
  | loop p ih =>
    simp only [Prog.words, List.cons_append, text_cons, text_append, List.append_assoc, text_nil]
    rw [findLoop_do, ih h, (findLoop_loop r d).1]

theorem Runs.step {E : Fl} {w : Str} (hw : IsTok w) {r r' : Str} {s s' : St} {o : Out St}
    (he : ∀ f, eval E f w r s = .ok (r', s')) (h : Runs E r' s' o) : Runs E (w ++ ' ' :: r) s o := by
  obtain ⟨h0, k, hk⟩ := h
  refine ⟨h0, k + 1, ?_⟩
  rw [run_tok E hw, he]
  exact hk

theorem eval_marker (E : Fl) (f : Str → St → Out St) {w : Str} (h : w = "then".toList ∨ w = "loop".toList)
    (r : Str) (s : St) : eval E f w r s = .ok (r, s) := by
  rcases h with rfl | rfl
  · rw [eval_plain E f (w := .then') (by decide +kernel) rfl]; rfl
  · rw [eval_plain E f (w := .loop) (by decide +kernel) rfl]; rfl

theorem eval_if_zero (E : Fl) (f : Str → St → Out St) (r : Str) {s : St} (h : top s = 0) :
    eval E f "if".toList r s =
      .ok (skipUntil (fun t => t = "then".toList || t = "else".toList) r, rest s) := by
  unfold eval
  rw [show builtin "if".toList = some .if' by decide +kernel]
  simp only
  rw [if_pos h]

theorem eval_if_nonzero (E : Fl) (f : Str → St → Out St) (r : Str) {s : St} (h : top s ≠ 0) :
    eval E f "if".toList r s = .ok (r, rest s) := by
  unfold eval
  rw [show builtin "if".toList = some .if' by decide +kernel]
  simp only
  rw [if_neg h]

theorem eval_else (E : Fl) (f : Str → St → Out St) (r : Str) (s : St) :
    eval E f "else".toList r s = .ok (skipUntil (fun t => t = "then".toList) r, s) := by
  unfold eval
  rw [show builtin "else".toList = some .else' by decide +kernel]

theorem eval_do (E : Fl) (f : Str → St → Out St) {r r' : Str} (h : findLoop r 0 = some r') (s : St) :
    eval E f "do".toList r s = (do .ok (r', ← iterate f (r.take (r.length - r'.length))
      (top (rest s) - top s).toNat (top s) (rest (rest s)))) := by
  unfold eval
  rw [show builtin "do".toList = some .do' by decide +kernel]
  simp only
  rw [h]

/-- Iterations, when the body is run as `g` says. -/
theorem iterate_turns (E : Fl) {body : Str} {g : St → Out St}
    (hg : ∀ s, g s ≠ .more → Runs E body s (g s)) (n : Nat) (i : Int) (s : St)
    (hm : turns g n i s ≠ .more) : ∃ k, iterate (run E k) body n i s = turns g n i s := by
  induction n generalizing i s with
  | zero => exact ⟨0, rfl⟩
  | succ n ih =>
    rw [turns] at hm ⊢
    by_cases hl : s.loops.length < 32
    · rw [if_pos hl] at hm ⊢
      cases hx : g { s with loops := i :: s.loops } with
      | ok s' =>
        rw [hx] at hm
        simp only at hm ⊢
        obtain ⟨k1, h1⟩ := ih _ _ hm
        obtain ⟨h0, k2, h2⟩ := hg _ (by rw [hx]; simp)
        rw [hx] at h2 h0
        refine ⟨max k1 k2, ?_⟩
        rw [iterate, if_pos hl]
        rw [run_mono E (Nat.le_max_right k1 k2) _ _ (by rw [h2]; simp), h2]
        simp only [Out.ok_bind]
        have ht : s'.loops.tail = s'.loops.drop 1 := by cases s'.loops <;> rfl
        rw [ht, iterate_mono (run_mono E (Nat.le_max_left k1 k2)) _ _ _ _ (by rw [h1]; exact hm), h1]
      | exit =>
        obtain ⟨h0, k2, h2⟩ := hg _ (by rw [hx]; simp)
        rw [hx] at h2
        exact ⟨k2, by rw [iterate, if_pos hl, h2]; rfl⟩
      | ub =>
        obtain ⟨h0, k2, h2⟩ := hg _ (by rw [hx]; simp)
        rw [hx] at h2
        exact ⟨k2, by rw [iterate, if_pos hl, h2]; rfl⟩
      | more => rw [hx] at hm; exact absurd rfl hm
    · rw [if_neg hl]
      exact ⟨0, by rw [iterate, if_neg hl]⟩

theorem top_getD (s : St) : top s = s.stack.getD 0 0 ∧ top (rest s) = s.stack.getD 1 0 ∧
    rest (rest s) = { s with stack := s.stack.drop 2 } := by
  unfold top rest
  cases s.stack with
  | nil => exact ⟨rfl, rfl, rfl⟩
  | cons a st =>
    cases st with
    | nil => exact ⟨rfl, rfl, rfl⟩
    | cons b st => exact ⟨rfl, rfl, rfl⟩

theorem skip_flat (E : Fl) (M : Str → St → Out St) {p : Prog} (h : Means E M p) (hf : p.flat = true)
    {stop : Str → Bool} (hs : ∀ w, w ≠ "then".toList → w ≠ "else".toList → stop w = false) {w : Str}
    (hw : IsTok w) (hsw : stop w = true) (r : Str) :
    skipUntil stop (text p.words ++ (w ++ ' ' :: r)) = r := by
  rw [skipUntil_words, skipUntil_stop hw hsw]
  intro x hx
  have := flat_words E M p h hf x hx
  exact ⟨words_tok E M p h x hx, hs x this.1 this.2⟩

theorem stop_both : ∀ w : Str, w ≠ "then".toList → w ≠ "else".toList →
    (fun t => decide (t = "then".toList) || decide (t = "else".toList)) w = false := by
  intro w h1 h2
  simp only [decide_eq_false h1, decide_eq_false h2]
  rfl

theorem stop_then : ∀ w : Str, w ≠ "then".toList → w ≠ "else".toList →
    (fun t => decide (t = "then".toList)) w = false := by
  intro w h1 _
  simp only [decide_eq_false h1]

/-- C127: a program whose conditionals are not nested does what its structure says, whatever comes
behind it.  Loops may be nested, in conditionals and in each other. -/
theorem structured_partial (E : Fl) (M : Str → St → Out St) (p : Prog) (h : Means E M p)
    (hs : p.simple = true) (s : St) (r : Str) (o : Out St) (ho : Then E (p.exec M s) r o) :
    Runs E (text p.words ++ r) s o := by
  have ctl : ∀ w, w ∈ controls → IsTok w := control_tok
  induction p generalizing s r o with
  | skip => exact ho
  | word w =>
    simp only [Prog.words, one_word]
    have he := h.2.2
    simp only [Prog.exec] at ho
    cases hx : M w s with
    | ok s' =>
      rw [hx] at ho
      refine Runs.step h.1 (r' := r) (s' := s') ?_ ho
      intro f
      rw [he, hx]
      rfl
    | exit =>
      rw [hx] at ho
      cases ho
      refine ⟨by simp, 1, ?_⟩
      rw [run_tok E h.1, he, hx]
      rfl
    | ub =>
      rw [hx] at ho
      cases ho
      refine ⟨by simp, 1, ?_⟩
      rw [run_tok E h.1, he, hx]
      rfl
    | more => rw [hx] at ho; exact absurd ho id
  | seq p q ihp ihq =>
    simp only [Prog.simple, Bool.and_eq_true] at hs
    simp only [Prog.words, text_append, List.append_assoc]
    simp only [Prog.exec] at ho
    apply ihp h.1 hs.1
    cases hx : p.exec M s with
    | ok s' => rw [hx] at ho; exact ihq h.2 hs.2 s' r o ho
    | exit => rw [hx] at ho; exact ho
    | ub => rw [hx] at ho; exact ho
    | more => rw [hx] at ho; exact ho
  | ift p ih =>
    have hf : p.flat = true := hs
    simp only [Prog.words, List.cons_append, text_cons, text_append, List.append_assoc, text_nil]
    simp only [Prog.exec] at ho
    have zero : top s = 0 → Runs E r (rest s) o →
        Runs E ("if".toList ++ ' ' :: (text p.words ++ ("then".toList ++ ' ' :: r))) s o := by
      intro hz hr
      refine Runs.step (ctl _ (by simp [controls])) (fun f => ?_) hr
      rw [eval_if_zero E f _ hz, skip_flat E M (p := p) h hf stop_both (ctl _ (by simp [controls])) (by decide)]
    cases hst : s.stack with
    | nil =>
      rw [hst] at ho
      have e : rest s = s := by
        obtain ⟨st, a, b, c, d, e, g⟩ := s
        simp only at hst
        subst hst
        rfl
      exact zero (by unfold top; rw [hst]; rfl) (by rw [e]; exact ho)
    | cons v st =>
      rw [hst] at ho
      simp only at ho
      have e : rest s = { s with stack := st } := by unfold rest; rw [hst]; rfl
      have ht : top s = v := by unfold top; rw [hst]; rfl
      by_cases hv : v = 0
      · rw [if_pos hv] at ho
        exact zero (by rw [ht, hv]) (by rw [e]; exact ho)
      · rw [if_neg hv] at ho
        refine Runs.step (ctl _ (by simp [controls]))
          (fun f => eval_if_nonzero E f _ (by rw [ht]; exact hv)) ?_
        rw [e]
        apply ih h (flat_simple p hf)
        cases hx : p.exec M { s with stack := st } with
        | ok s' =>
          rw [hx] at ho
          exact Runs.step (ctl _ (by simp [controls])) (fun f => eval_marker E f (.inl rfl) _ _) ho
        | exit => rw [hx] at ho; exact ho
        | ub => rw [hx] at ho; exact ho
        | more => rw [hx] at ho; exact ho
  | ifte p q ihp ihq =>
    simp only [Prog.simple, Bool.and_eq_true] at hs
    simp only [Prog.words, List.cons_append, text_cons, text_append, List.append_assoc, text_nil]
    simp only [Prog.exec] at ho
    have zero : ∀ s', rest s = s' → top s = 0 → Then E (q.exec M s') r o →
        Runs E ("if".toList ++ ' ' :: (text p.words ++ ("else".toList ++ ' ' ::
          (text q.words ++ ("then".toList ++ ' ' :: r))))) s o := by
      intro s' e hz ho
      have hq : Runs E (text q.words ++ ("then".toList ++ ' ' :: r)) s' o := by
        apply ihq h.2 (flat_simple q hs.2)
        cases hx : q.exec M s' with
        | ok s' =>
          rw [hx] at ho
          exact Runs.step (ctl _ (by simp [controls])) (fun f => eval_marker E f (.inl rfl) _ _) ho
        | exit => rw [hx] at ho; exact ho
        | ub => rw [hx] at ho; exact ho
        | more => rw [hx] at ho; exact ho
      rw [← e] at hq
      refine Runs.step (ctl _ (by simp [controls])) (fun f => ?_) hq
      rw [eval_if_zero E f _ hz, skip_flat E M h.1 hs.1 stop_both (ctl _ (by simp [controls])) (by decide)]
    cases hst : s.stack with
    | nil =>
      rw [hst] at ho
      have e : rest s = s := by
        obtain ⟨st, a, b, c, d, e, g⟩ := s
        simp only at hst
        subst hst
        rfl
      exact zero _ e (by unfold top; rw [hst]; rfl) ho
    | cons v st =>
      rw [hst] at ho
      simp only at ho
      have e : rest s = { s with stack := st } := by unfold rest; rw [hst]; rfl
      have ht : top s = v := by unfold top; rw [hst]; rfl
      by_cases hv : v = 0
      · rw [if_pos hv] at ho
        exact zero _ e (by rw [ht, hv]) ho
      · rw [if_neg hv] at ho
        refine Runs.step (ctl _ (by simp [controls]))
          (fun f => eval_if_nonzero E f _ (by rw [ht]; exact hv)) ?_
        rw [e]
        apply ihp h.1 (flat_simple p hs.1)
        cases hx : p.exec M { s with stack := st } with
        | ok s' =>
          rw [hx] at ho
          refine Runs.step (ctl _ (by simp [controls])) (fun f => ?_) (s' := s') ho
          rw [eval_else, skip_flat E M h.2 hs.2 stop_then (ctl _ (by simp [controls])) (by decide)]
        | exit => rw [hx] at ho; exact ho
        | ub => rw [hx] at ho; exact ho
        | more => rw [hx] at ho; exact ho
  | loop p ih =>
    simp only [Prog.words, List.cons_append, text_cons, text_append, List.append_assoc, text_nil]
    simp only [Prog.exec] at ho
    have hfind : findLoop (text p.words ++ ("loop".toList ++ ' ' :: r)) 0 = some r := by
      rw [findLoop_words E M p h, (findLoop_loop r 0).2]
    have hbody : (text p.words ++ ("loop".toList ++ ' ' :: r)).take
        ((text p.words ++ ("loop".toList ++ ' ' :: r)).length - r.length) =
        text p.words ++ ("loop".toList ++ ' ' :: []) := by
      have : text p.words ++ ("loop".toList ++ ' ' :: r) =
          (text p.words ++ ("loop".toList ++ ' ' :: [])) ++ r := by simp
      rw [this, List.length_append, Nat.add_sub_cancel, List.take_left]
    have hg : ∀ s, p.exec M s ≠ .more →
        Runs E (text p.words ++ ("loop".toList ++ ' ' :: [])) s (p.exec M s) := by
      intro s hm
      apply ih h hs
      cases hx : p.exec M s with
      | ok s' =>
        refine Runs.step (ctl _ (by simp [controls])) (fun f => eval_marker E f (.inr rfl) _ _) ?_
        exact ⟨by simp, 1, rfl⟩
      | exit => rfl
      | ub => rfl
      | more => exact absurd hx hm
    obtain ⟨t1, t2, t3⟩ := top_getD s
    have hm : turns (p.exec M) (s.stack.getD 1 0 - s.stack.getD 0 0).toNat (s.stack.getD 0 0)
        { s with stack := s.stack.drop 2 } ≠ .more := by
      intro e
      rw [e] at ho
      exact ho
    obtain ⟨k1, h1⟩ := iterate_turns E hg _ _ _ hm
    have heval : ∀ k, k1 ≤ k → eval E (run E k) "do".toList
        (text p.words ++ ("loop".toList ++ ' ' :: r)) s = (do
          .ok (r, ← turns (p.exec M) (s.stack.getD 1 0 - s.stack.getD 0 0).toNat (s.stack.getD 0 0)
            { s with stack := s.stack.drop 2 })) := by
      intro k hk
      rw [eval_do E _ hfind, hbody, t1, t2, t3,
        iterate_mono (run_mono E hk) _ _ _ _ (by rw [h1]; exact hm), h1]
    cases hx : turns (p.exec M) (s.stack.getD 1 0 - s.stack.getD 0 0).toNat (s.stack.getD 0 0)
        { s with stack := s.stack.drop 2 } with
    | ok s' =>
      rw [hx] at ho
      obtain ⟨h0, k2, h2⟩ := ho
      refine ⟨h0, max k1 k2 + 1, ?_⟩
      rw [run_tok E (ctl _ (by simp [controls])), heval _ (Nat.le_max_left _ _), hx]
      simp only [Out.ok_bind]
      rw [run_mono E (Nat.le_max_right k1 k2) _ _ (by rw [h2]; exact h0), h2]
    | exit =>
      rw [hx] at ho
      cases ho
      refine ⟨by simp, k1 + 1, ?_⟩
      rw [run_tok E (ctl _ (by simp [controls])), heval _ (Nat.le_refl _), hx]
      rfl
    | ub =>
      rw [hx] at ho
      cases ho
      refine ⟨by simp, k1 + 1, ?_⟩
      rw [run_tok E (ctl _ (by simp [controls])), heval _ (Nat.le_refl _), hx]
      rfl
    | more => exact absurd hx hm

/-- C127: and it does nothing else: the outcome is the only one. -/
theorem structured_unique (E : Fl) (M : Str → St → Out St) (p : Prog) (h : Means E M p)
    (hs : p.simple = true) (s : St) (r : Str) (o o' : Out St) (ho : Then E (p.exec M s) r o)
    (h' : Runs E (text p.words ++ r) s o') : o' = o :=
  Runs.unique h' (structured_partial E M p h hs s r o ho)

/-- C127, violated: a conditional inside of one that is not taken: the first `then` is taken for the end
of both, and the rest of the outer one is run. -/
theorem nested_if_violated (E : Fl) (M : Str → St → Out St) (a b : Prog) (ha : Means E M a)
    (hb : Means E M b) (fa : a.flat = true) (sb : b.simple = true) (s : St) (st : List Int)
    (hz : s.stack = 0 :: st) (r : Str) (o : Out St)
    (ho : Then E (b.exec M { s with stack := st }) ("then".toList ++ ' ' :: r) o) :
    (Prog.ift (.seq (.ift a) b)).exec M s = .ok { s with stack := st } ∧
      Runs E (text (Prog.ift (.seq (.ift a) b)).words ++ r) s o := by
  constructor
  · simp only [Prog.exec, hz, if_true]
  · simp only [Prog.words, List.cons_append, text_cons, text_append, List.append_assoc, text_nil]
    have hq := structured_partial E M b hb sb _ _ _ ho
    refine Runs.step (control_tok _ (by simp [controls])) (fun f => ?_) hq
    rw [eval_if_zero E f _ (by unfold top; rw [hz]; rfl),
      skipUntil_go (control_tok _ (by simp [controls])) (by decide),
      skip_flat E M ha fa stop_both (control_tok _ (by simp [controls])) (by decide)]
    unfold rest
    rw [hz]
    rfl

/-- C127: a `do` without `loop` stops the compiler. -/
theorem do_without_loop (E : Fl) (M : Str → St → Out St) (p : Prog) (h : Means E M p) (s : St) :
    Runs E (text ("do".toList :: p.words)) s .exit := by
  refine ⟨by simp, 1, ?_⟩
  have : text ("do".toList :: p.words) = "do".toList ++ ' ' :: (text p.words ++ []) := by simp [text]
  rw [this, run_tok E (control_tok _ (by simp [controls]))]
  unfold eval
  rw [show builtin "do".toList = some .do' by decide +kernel]
  simp only
  rw [findLoop_words E M p h, findLoop_none nextToken_nil]
  rfl

end Verif.Forth
