import Verif.Keywords.Lemmas

/-!
# C45: keywords are recognised as whole words

Property: a statement reads back as written, whatever its names are, as long as no name is a
reserved word itself.  The specification is `Spec.text`, the way each statement is written, and
`Spec.WF whole`, which says where a name must not be a keyword.

* `reads_back_whole`: with whole-word tests the property holds for every program.
* `reads_back_partial`: the code's tests, which compare a prefix only, give the property for the
  programs in which no name *begins* with the keyword in the places where one may stand;
  `reads_back_words_partial` is the same with a condition on the words alone.
  Missing: the other programs, for which the property is false (`..._violated`).
-/

namespace Verif.Keywords
open Verif Verif.Str Verif.Lexer Spec

/-! ## The test on the source buffer -/

theorem strncmp0_iff : ∀ {k s : List Byte}, strncmp0 k s = true ↔ k <+: s
  | [], s => by simp [strncmp0]
  | a :: k, [] => by simp [strncmp0]
  | a :: k, c :: s => by
      rw [strncmp0, Bool.and_eq_true, beq_iff_eq, strncmp0_iff, List.cons_prefix_cons]

theorem strncmp0_take : ∀ {k s : List Byte}, (∀ c ∈ k, identChar c = true) →
    strncmp0 k s = strncmp0 k (s.take (span identChar s))
  | [], s, _ => by simp [strncmp0]
  | a :: k, [], _ => by simp [strncmp0]
  | a :: k, c :: s, h => by
      have ha : identChar a = true := h a (by simp)
      have ih := strncmp0_take (k := k) (s := s) (fun c hc => h c (List.mem_cons_of_mem _ hc))
      by_cases hc : identChar c = true
      · rw [span, if_pos hc, List.take_succ_cons, strncmp0, strncmp0, ih]
      · rw [span, if_neg hc]
        have : a ≠ c := fun e => hc (e ▸ ha)
        simp [strncmp0, this]

/-- The test `strncmp(tok.start, k, strlen(k)) == 0` runs on the source text, not on the token: it
may look behind the end of the word.  For a keyword it still says exactly that the *word* begins
with `k`. -/
theorem prefix_test_on_buffer {k s : List Byte} (hk : ∀ c ∈ k, identChar c = true) :
    strncmp0 k s = true ↔ k <+: s.take (span identChar s) := by
  rw [strncmp0_take hk, strncmp0_iff]

/-- the condition holds of the contextual keywords, and the test looks at the word in front of
` (b)` only -/
example : (∀ c ∈ kElse, identChar c = true) ∧
    strncmp0 kElse ([101, 108, 115, 101, 119, 104, 101, 114, 101] ++ [40, 98, 41]) = true := by decide

/-! ## Reading back -/

variable {L : Lang}

theorem own_whole : Own whole := by constructor <;> decide
theorem own_prefix : Own prefixOf := by constructor <;> decide

/-- With whole-word keyword tests every statement is read back as it was written. -/
theorem reads_back_whole (hL : Laws L) {s : Stmt L} (h : WF whole s) {r : List Tok}
    (hr : openEnd s = true → ¬ begins whole kElse r) (hc : at? .colon r = false) :
    ∃ N, ∀ f, N ≤ f → stmt L whole f (text s ++ r) = some (s, r) :=
  ⟨size s, fun _ hf => stmt_ok hL own_whole s hf h ⟨hr, hc⟩⟩

/-- The code's parser reads back every statement in which no name begins with a contextual keyword
in a place where that keyword may stand. -/
theorem reads_back_partial (hL : Laws L) {s : Stmt L} (h : WF prefixOf s) {r : List Tok}
    (hr : openEnd s = true → ¬ begins prefixOf kElse r) (hc : at? .colon r = false) :
    ∃ N, ∀ f, N ≤ f → stmt L prefixOf f (text s ++ r) = some (s, r) :=
  ⟨size s, fun _ hf => stmt_ok hL own_prefix s hf h ⟨hr, hc⟩⟩

/-- the same for the statements of a block -/
theorem block_reads_back_partial (hL : Laws L) {ss : Stmts L} (h : WFs prefixOf ss) {r : List Tok} :
    ∃ N, ∀ f, N ≤ f → block L prefixOf f (texts ss ++ .rb :: r) = some (ss, r) :=
  ⟨sizes ss, fun _ hf => stmts_ok hL own_prefix ss hf h⟩

/-- Two programs without such names that are written the same are the same. -/
theorem text_unique (hL : Laws L) {a b : Stmts L} (ha : WFs whole a) (hb : WFs whole b)
    (h : texts a = texts b) : a = b := by
  have e1 := stmts_ok hL own_whole a (f := sizes a + sizes b) (by omega) ha (r := [])
  have e2 := stmts_ok hL own_whole b (f := sizes a + sizes b) (by omega) hb (r := [])
  rw [h, e2] at e1
  simpa using e1.symm

/-- a word that begins with a contextual keyword is that keyword -/
def NoExt (w : Word) : Prop :=
  ∀ k ∈ [kElse, kIf, kIn, kStep, kLet, kVar, kAssert, kReturn], k <+: w → w = k

/-- the words of a text -/
def Plain (ts : List Tok) : Prop := ∀ w, Tok.word w ∈ ts → NoExt w

theorem Plain.left {a b : List Tok} (h : Plain (a ++ b)) : Plain a := fun w hw => h w (by simp [hw])
theorem Plain.right {a b : List Tok} (h : Plain (a ++ b)) : Plain b := fun w hw => h w (by simp [hw])
theorem Plain.tail {a : Tok} {b : List Tok} (h : Plain (a :: b)) : Plain b := fun w hw => h w (by simp [hw])
theorem Plain.drop {b : List Tok} (h : Plain b) (n : Nat) : Plain (b.drop n) :=
  fun w hw => h w (List.mem_of_mem_drop hw)

theorem begins_plain {k : Word} {ts : List Tok} (h : Plain ts)
    (hk : k ∈ [kElse, kIf, kIn, kStep, kLet, kVar, kAssert, kReturn])
    (hb : begins prefixOf k ts) : begins whole k ts := by
  cases ts with
  | nil => exact hb
  | cons x ts =>
      cases x with
      | word w =>
          refine ⟨hb.1, ?_⟩
          have := h w (by simp) k hk (strncmp0_iff.mp hb.2)
          simp [whole, this]
      | _ => exact hb

mutual
theorem wf_plain : (s : Stmt L) → Plain (text s) → WF whole s → WF prefixOf s
  | .nop, _, _ | .brk, _, _ | .cont, _, _ | .letS _, _, _ | .asrt _, _, _ | .ret none, _, _ => trivial
  | .ret (some _), _, h => h
  | .expr _, _, h => h
  | .blk ss, hp, h => wfs_plain ss hp.tail.left h
  | .loop ss, hp, h => wfs_plain ss hp.tail.tail.left h
  | .unless _ ss, hp, h => wfs_plain ss hp.tail.right.tail.left h
  | .doWhile ss _, hp, h => wfs_plain ss hp.tail.tail.left h
  | .ifs _ b e, hp, h =>
      ⟨wfb_plain b hp.tail.right.left h.1, h.2.1, wfe_plain e hp.tail.right.right h.2.2.1, h.2.2.2⟩
  | .whl _ b, hp, h => ⟨wfb_plain b hp.tail.right h.1, h.2⟩
  | .guard _ b, hp, h => wfb_plain b hp.tail.right.tail h
  | .forRange _ _ _ _ none b, hp, h =>
      have hb : Plain (bodyText b) := hp.tail.tail.tail.right.tail.right.right
      ⟨h.1, wfb_plain b hb h.2.1, h.2.2.1, fun hx => h.2.2.2 (begins_plain hb (by simp) hx)⟩
  | .forRange _ _ _ _ (some ⟨true, _⟩) b, hp, h =>
      ⟨h.1, wfb_plain b hp.tail.tail.tail.right.tail.right.right h.2.1, trivial⟩
  | .forRange _ _ _ _ (some ⟨false, _⟩) b, hp, h =>
      ⟨h.1, wfb_plain b hp.tail.tail.tail.right.tail.right.right h.2.1, h.2.2⟩
  | .forEach _ _ b, hp, h => ⟨h.1, wfb_plain b hp.tail.tail.tail.right h.2.1, h.2.2⟩
  | .forC none _ _ b, hp, h =>
      ⟨trivial, h.2.1, h.2.2.1, wfb_plain b hp.tail.right.tail.right.tail.right h.2.2.2⟩
  | .forC (some e) _ _ b, hp, h =>
      have he : Plain (L.prE e) := hp.tail.left
      have h1 := h.1
      ⟨⟨h1.1, h1.2.1, fun hx => h1.2.2.1 (begins_plain he (by simp) hx),
        fun hx => h1.2.2.2.1 (begins_plain he (by simp) hx),
        fun hx => h1.2.2.2.2 (begins_plain (he.drop 1) (by simp) hx)⟩, h.2.1, h.2.2.1,
        wfb_plain b hp.tail.right.tail.right.tail.right h.2.2.2⟩
  | .forLet d _ _ b, hp, h =>
      ⟨fun hx => h.1 (begins_plain hp.tail.tail.left (by simp) hx), h.2.1, h.2.2.1,
        wfb_plain b hp.tail.tail.right.right.tail.right h.2.2.2⟩
  | .mtch _ cs, hp, h => wfc_plain cs hp.tail.right.tail.left h
  | .label _, _, h => h
theorem wfs_plain : (ss : Stmts L) → Plain (texts ss) → WFs whole ss → WFs prefixOf ss
  | .nil, _, _ => trivial
  | .cons s ss, hp, h =>
      ⟨wf_plain s hp.left h.1, wfs_plain ss hp.right h.2.1,
        fun ho hx => h.2.2 ho (begins_plain hp.right (by simp) hx)⟩
theorem wfb_plain : (b : Body L) → Plain (bodyText b) → WFb whole b → WFb prefixOf b
  | .braces ss, hp, h => wfs_plain ss hp.tail.left h
  | .one s, hp, h => ⟨wf_plain s hp h.1, h.2⟩
theorem wfe_plain : (e : Els L) → Plain (elsText e) → WFe whole e → WFe prefixOf e
  | .none, _, _ => trivial
  | .elif _ b e, hp, h =>
      ⟨wfb_plain b hp.tail.tail.right.left h.1, h.2.1, wfe_plain e hp.tail.tail.right.right h.2.2.1, h.2.2.2⟩
  | .els b, hp, h => ⟨wfb_plain b hp.tail h.1, fun hx => h.2 (begins_plain hp.tail (by simp) hx)⟩
theorem wfc_plain : (cs : Cases L) → Plain (casesText cs) → WFc whole cs → WFc prefixOf cs
  | .nil, _, _ => trivial
  | .cons _ _ b cs, hp, h =>
      ⟨wfcb_plain b hp.right.right.tail.left h.1, wfc_plain cs hp.right.right.tail.right.tail h.2⟩
theorem wfcb_plain : (b : CBody L) → Plain (cbodyText b) → WFcb whole b → WFcb prefixOf b
  | .braces ss, hp, h => wfs_plain ss hp.tail.left h
  | .asrt _, _, _ | .ret none, _, _ => trivial
  | .ret (some _), _, h => h
  | .expr _, hp, h =>
      ⟨h.1, h.2.1, fun hx => h.2.2.1 (begins_plain hp (by simp) hx),
        fun hx => h.2.2.2 (begins_plain hp (by simp) hx)⟩
end

/-- If every word of the program that begins with one of `else if in step let var assert return` is
that word, the code's parser reads the program back as written. -/
theorem reads_back_words_partial (hL : Laws L) {ss : Stmts L} (h : WFs whole ss)
    (hp : ∀ w, Tok.word w ∈ texts ss →
      ∀ k ∈ [kElse, kIf, kIn, kStep, kLet, kVar, kAssert, kReturn], k <+: w → w = k)
    {r : List Tok} : ∃ N, ∀ f, N ≤ f → block L prefixOf f (texts ss ++ .rb :: r) = some (ss, r) :=
  block_reads_back_partial hL (wfs_plain ss hp h)

/-! ## A small language, to show that the assumptions can be met and for the counterexamples -/

/-- names and calls with one argument; parentheses -/
inductive Ex where
  | name (w : Word) | call (f a : Word) | par (a : Word)
  deriving DecidableEq, Repr

def exText : Ex → List Tok
  | .name w => [.word w]
  | .call f a => [.word f, .lp, .word a, .rp]
  | .par a => [.lp, .word a, .rp]

def exParse : List Tok → Option (Ex × List Tok)
  | .word f :: .lp :: .word a :: .rp :: r => some (.call f a, r)
  | .word w :: r => some (.name w, r)
  | .lp :: .word a :: .rp :: r => some (.par a, r)
  | _ => none

/-- the declarations are `name = name ;`, with `=` written as some other token -/
def L0 : Lang where
  E := Ex
  P := Word
  D := Word × Word
  expr := exParse
  pat := fun ts => match ts with
    | .word w :: r => some (w, r)
    | _ => none
  decl := fun ts => match ts with
    | .word x :: .other 0 :: .word y :: .semi :: r => some ((x, y), r)
    | _ => none
  prE := exText
  prP := fun w => [.word w]
  prD := fun d => [.word d.1, .other 0, .word d.2, .semi]
  stopW := fun _ => True

theorem laws0 : Laws L0 where
  expr := by
    intro e r hr
    cases e with
    | name w =>
        show exParse (.word w :: r) = _
        cases r with
        | nil => rfl
        | cons x r => cases x <;> first | rfl | exact absurd hr (by simp [stops])
    | call f a => rfl
    | par a => rfl
  pat := fun p r _ => rfl
  decl := fun d r => rfl
  stopElse := trivial
  stopStep := trivial
  exprNe := by intro e; cases e <;> simp [L0, exText]
  exprBang := by intro e r h; cases e <;> simp [L0, exText] at h
  declBang := fun d => ⟨.word d.1, _, rfl, by simp⟩
  patHead := fun p => ⟨.word p, [], rfl, by simp, by simp⟩

def wa : Word := [97]
def wb : Word := [98]
def wx : Word := [120]
/-- `ifx` -/
def wIfx : Word := [105, 102, 120]
/-- `elsewhere` -/
def wElsewhere : Word := [101, 108, 115, 101, 119, 104, 101, 114, 101]
/-- `returned` -/
def wReturned : Word := [114, 101, 116, 117, 114, 110, 101, 100]
/-- `assertion` -/
def wAssertion : Word := [97, 115, 115, 101, 114, 116, 105, 111, 110]
/-- `index` -/
def wIndex : Word := [105, 110, 100, 101, 120]
/-- `letter` -/
def wLetter : Word := [108, 101, 116, 116, 101, 114]
/-- `stepper` -/
def wStepper : Word := [115, 116, 101, 112, 112, 101, 114]

/-- A non-trivial instance of the partial theorem:
`for let x = a; x; x { if a { b(x); } else if b return a; else iffy: }  match a { x if b => a(b), b => return; , }`
with a name that begins with `if` in a place where that is harmless. -/
def sample : Stmts L0 :=
  .cons (.forLet (wx, wa) (some (.name wx)) (some (.name wx)) (.braces
      (.cons (.ifs (.name wa) (.braces (.cons (.expr (.call wb wx)) .nil))
        (.elif (.name wb) (.one (.ret (some (.name wa)))) (.els (.braces (.cons (.label wIfx) .nil))))) .nil)))
  (.cons (.mtch (.name wa) (.cons wx (some (.name wb)) (.expr (.call wa wb))
      (.cons wb none (.ret none) .nil))) .nil)

example : WFs prefixOf sample ∧ ∃ N, ∀ f, N ≤ f →
    block L0 prefixOf f (texts sample ++ [.rb]) = some (sample, []) := by
  have h : WFs prefixOf sample := by
    simp [sample, WFs, WF, WFb, WFe, WFc, WFcb, begins, L0, exText, notAt, at?, behindExpr, plainStart,
      prefixOf, strncmp0, kIn, kElse, kIf, kAssert, kReturn, wa, wb, wx, bodyOpen, openEnd, elsOpen,
      texts, text, bodyText, headOf, heads, kLet, kVar, kWhile, kFor, kMatch, kBreak, kContinue, kLoop,
      kUnless, kGuard, kDo, wIfx]
    decide
  exact ⟨h, block_reads_back_partial laws0 h⟩

/-- what is proved violated below: the program is well formed, a parser with whole-word tests reads
it, yet the code reads `q` -/
def Misread (s : Stmt L0) (q : Option (Stmt L0 × List Tok)) : Prop :=
  WF whole s ∧ ∃ N, ∀ f, N ≤ f → stmt L0 whole f (text s) = some (s, []) ∧
    stmt L0 prefixOf f (text s) = q ∧ q ≠ some (s, [])

theorem misread_of {s : Stmt L0} {q : Option (Stmt L0 × List Tok)} (hw : WF whole s)
    (h1 : ∀ f, stmt L0 whole (f + 40) (text s) = some (s, []))
    (h2 : ∀ f, stmt L0 prefixOf (f + 40) (text s) = q) (h3 : q ≠ some (s, [])) : Misread s q := by
  refine ⟨hw, 40, fun f hf => ?_⟩
  obtain ⟨f, rfl⟩ : ∃ g, f = g + 40 := ⟨f - 40, by omega⟩
  exact ⟨h1 f, h2 f, h3⟩

/-- The code reads `if a { } else ifx(b);` as `if a { } else if (b) ;`: the call is gone. -/
theorem else_if_name_violated :
    Misread (.ifs (.name wa) (.braces .nil) (.els (.one (.expr (.call wIfx wb)))))
      (some (.ifs (.name wa) (.braces .nil) (.elif (.par wb) (.one .nop) .none), [])) := by
  refine misread_of ?_ (fun _ => rfl) (fun _ => rfl) ?_
  · simp [WF, WFb, WFe, WFs, behindExpr, bodyOpen, plainStart, L0, exText, notAt, at?, text,
      begins, bodyText, whole, Els.isNone]
    decide
  · intro h; injection h with h; injection h with h _; injection h with _ _ h; cases h

/-- The code reads `{ if a { } elsewhere(b); }` as `{ if a { } else (b); }`: the statement behind
the `if` becomes its else branch and the call is gone. -/
theorem else_name_violated :
    Misread (.blk (.cons (.ifs (.name wa) (.braces .nil) .none)
        (.cons (.expr (.call wElsewhere wb)) .nil)))
      (some (.blk (.cons (.ifs (.name wa) (.braces .nil) (.els (.one (.expr (.par wb))))) .nil), [])) := by
  refine misread_of ?_ (fun _ => rfl) (fun _ => rfl) ?_
  · simp [WF, WFb, WFe, WFs, behindExpr, openEnd, elsOpen, plainStart, L0, exText, at?, text, texts,
      begins, whole, Els.isNone]
    decide
  · intro h; injection h with h; injection h with h _; injection h with h; injection h with h _
    injection h with _ _ h; cases h

/-- The code reads the case `x => returned(b)` as `x => return (b)`: a call becomes a return from
the enclosing function. -/
theorem return_name_violated :
    Misread (.mtch (.name wa) (.cons wx none (.expr (.call wReturned wb)) .nil))
      (some (.mtch (.name wa) (.cons wx none (.ret (some (.par wb))) .nil), [])) := by
  refine misread_of ?_ (fun _ => rfl) (fun _ => rfl) ?_
  · simp [WF, WFc, WFcb, L0, exText, notAt, at?, begins, whole]
    decide
  · intro h; injection h with h; injection h with h _; injection h with _ h; injection h with _ _ h
    cases h

/-- The code reads the case `x => assertion(b)` as `x => assert(b)`. -/
theorem assert_name_violated :
    Misread (.mtch (.name wa) (.cons wx none (.expr (.call wAssertion wb)) .nil))
      (some (.mtch (.name wa) (.cons wx none (.asrt (.name wb)) .nil), [])) := by
  refine misread_of ?_ (fun _ => rfl) (fun _ => rfl) ?_
  · simp [WF, WFc, WFcb, L0, exText, notAt, at?, begins, whole]
    decide
  · intro h; injection h with h; injection h with h _; injection h with _ h; injection h with _ _ h
    cases h

/-- The code rejects `for let index = b; a; a { }`: it takes `let` for the variable and `index` for
the word `in`. -/
theorem for_let_in_violated :
    Misread (.forLet (wIndex, wb) (some (.name wa)) (some (.name wa)) (.braces .nil)) none := by
  refine misread_of ?_ (fun _ => rfl) (fun _ => rfl) (by simp)
  simp [WF, WFb, WFs, behindExpr, L0, exText, notAt, at?, begins, whole]
  decide

/-- The code rejects `for letter; a; a { }`: it takes `letter` for `let`. -/
theorem for_let_name_violated :
    Misread (.forC (some (.name wLetter)) (some (.name wa)) (some (.name wa)) (.braces .nil)) none := by
  refine misread_of ?_ (fun _ => rfl) (fun _ => rfl) (by simp)
  simp [WF, WFb, WFs, behindExpr, L0, exText, notAt, at?, begins, whole]
  decide

/-- The code reads `for x in a..b stepper(a);` as a loop with the step `(` and stops before `)`. -/
theorem step_name_violated :
    Misread (.forRange wx (.name wa) false (.name wb) none (.one (.expr (.call wStepper wa))))
      (some (.forRange wx (.name wa) false (.name wb) (some ⟨false, .lp⟩) (.one (.expr (.name wa))),
        [.rp, .semi])) := by
  refine misread_of ?_ (fun _ => rfl) (fun _ => rfl) (by simp)
  simp [WF, WFb, behindExpr, plainStart, L0, exText, notAt, at?, text, begins, bodyText, whole]
  decide

/-- The code accepts `guard a elsewhere { }`, which is no statement of the language. -/
theorem guard_name_violated : ∃ N, ∀ f, N ≤ f →
    stmt L0 prefixOf f [.word kGuard, .word wa, .word wElsewhere, .lb, .rb] =
      some (.guard (.name wa) (.braces .nil), []) ∧
    stmt L0 whole f [.word kGuard, .word wa, .word wElsewhere, .lb, .rb] = none := by
  refine ⟨40, fun f hf => ?_⟩
  obtain ⟨f, rfl⟩ : ∃ g, f = g + 40 := ⟨f - 40, by omega⟩
  exact ⟨rfl, rfl⟩

/-- A statement that begins with a path, `A::b ...`, is an expression and not a label, for all names
that are no keywords of statements and whatever follows; with one colon it is a label. -/
theorem path_is_expression (L : Lang) (t : Word → Word → Bool) {w : Word} (hw : headOf w heads = none) (f : Nat) (r : List Tok) :
    (∀ e r', L.expr (.word w :: .colon :: .colon :: r) = some (e, r') →
      stmt L t (f + 1) (.word w :: .colon :: .colon :: r) = some (.expr e, eat .semi r')) ∧
    (isIdent w = true → at? .colon r = false → stmt L t (f + 1) (.word w :: .colon :: r) = some (.label w, r)) := by
  constructor
  · intro e r' he
    simp [stmt, hw, at?, he]
  · intro hi hr
    have h1 : at? .colon (.colon :: r) = true := rfl
    have h2 : at? .bang (.colon :: r) = false := rfl
    simp [stmt, hw, hi, hr, h1, h2]

/-- The name `a` is none of the keywords. -/
example : headOf wa heads = none ∧ isIdent wa = true := by decide

end Verif.Keywords
